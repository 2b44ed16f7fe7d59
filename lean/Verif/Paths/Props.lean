import Verif.Paths.Proofs

/-! # Properties of names of files -/

namespace Verif.Paths

open Verif.Strings

/-! ### C178: full names -/

/-- In a working directory at `cwd`, the full name of `s` is the name of the place one comes to by walking from `cwd`, or from the root
if `s` starts with a separator, along the parts of `s`. -/
theorem full_name (cwd : List Txt) (s : Txt) (h : ∀ q ∈ cwd, Proper q) (hs : s ≠ []) :
    fullNameFor (name cwd) s = .done (name (resolve cwd s)) ∧ ∀ q ∈ resolve cwd s, Proper q :=
  ⟨full_eq cwd s h hs, resolve_proper cwd s h⟩

/-- A full name is its own full name, wherever one is. -/
theorem full_again (cwd cwd' : List Txt) (s y : Txt) (h : ∀ q ∈ cwd, Proper q) (h' : ∀ q ∈ cwd', Proper q)
    (hy : fullNameFor (name cwd) s = .done y) : fullNameFor (name cwd') y = .done y := by
  have hs : s ≠ [] := by rintro rfl; simp [fullNameFor, isAbsolute, Out.bind] at hy
  rw [full_eq cwd s h hs] at hy
  obtain rfl := Out.done.inj hy
  rw [full_eq cwd' _ h' (name_ne _), resolve_name _ _ (resolve_proper cwd s h)]

theorem go_one (pos : List Txt) (n : Txt) (hn : Proper n) : go pos n = pos ++ [n] := by
  unfold go
  rw [if_neg (by rw [not_or]; exact ⟨hn.1, hn.2.1⟩), if_neg hn.2.2.1]

/-- Going down and up again, and staying, change nothing. -/
theorem full_updown (cwd : List Txt) (a n b : Txt) (h : ∀ q ∈ cwd, Proper q) (hn : Proper n) :
    fullNameFor (name cwd) (a ++ "/".toList ++ n ++ "/../".toList ++ b) = fullNameFor (name cwd) (a ++ "/".toList ++ b) ∧
    fullNameFor (name cwd) (a ++ "/./".toList ++ b) = fullNameFor (name cwd) (a ++ "/".toList ++ b) ∧
    fullNameFor (name cwd) (a ++ "//".toList ++ b) = fullNameFor (name cwd) (a ++ "/".toList ++ b) := by
  have head : ∀ x y : Txt, (a ++ '/' :: x).head? = (a ++ '/' :: y).head? := by intro x y; cases a <;> simp
  have e0 : a ++ "/".toList ++ b = a ++ '/' :: b := by simp [show "/".toList = ['/'] from rfl]
  have e1 : a ++ "/".toList ++ n ++ "/../".toList ++ b = a ++ '/' :: (n ++ '/' :: (['.', '.'] ++ '/' :: b)) := by
    simp [show "/".toList = ['/'] from rfl, show "/../".toList = ['/', '.', '.', '/'] from rfl]
  have e2 : a ++ "/./".toList ++ b = a ++ '/' :: (['.'] ++ '/' :: b) := by simp [show "/./".toList = ['/', '.', '/'] from rfl]
  have e3 : a ++ "//".toList ++ b = a ++ '/' :: ([] ++ '/' :: b) := by simp [show "//".toList = ['/', '/'] from rfl]
  have ne : ∀ x : Txt, a ++ '/' :: x ≠ [] := by simp
  rw [e0, e1, e2, e3]
  simp only [full_eq cwd _ h (ne _), Out.done.injEq]
  unfold resolve
  simp only [split_append, head _ b, List.foldl_append, split_none n hn.2.2.2, split_none ['.', '.'] (by simp), split_none ['.'] (by simp),
    split_none [] (by simp), List.foldl_cons, List.foldl_nil]
  refine ⟨?_, rfl, rfl⟩
  congr 2
  rw [go_one _ n hn]
  exact List.dropLast_concat

/-- A name that does not start with a separator can be given from the root by putting the working directory before it. -/
theorem full_relative (cwd : List Txt) (s p : Txt) (h : ∀ q ∈ cwd, Proper q) (hs : s ≠ []) (hp : append s (name cwd) = .done p)
    (wd : List Txt) (hw : ∀ q ∈ wd, Proper q) : fullNameFor (name wd) p = fullNameFor (name cwd) s := by
  obtain ⟨c, cs, rfl⟩ : ∃ c cs, s = c :: cs := by cases s with
    | nil => exact absurd rfl hs
    | cons c cs => exact ⟨c, cs, rfl⟩
  unfold append at hp
  rw [if_neg (by have := name_ne cwd; cases hh : name cwd <;> simp_all)] at hp
  dsimp only at hp
  by_cases hc : c = '/'
  · rw [if_pos (by simp [slash, hc])] at hp
    obtain rfl := Out.done.inj hp
    rw [full_eq wd _ hw hs, full_eq cwd _ h hs]
    unfold resolve
    simp [hc]
  · rw [if_neg (by simp [slash, hc])] at hp
    have hr := resolve_name [] cwd h
    by_cases h0 : cwd = []
    · subst h0
      simp only [name, if_true, List.getLast?_singleton, slash, decide_true] at hp
      obtain rfl := Out.done.inj hp
      rw [full_eq wd _ hw (by simp), full_eq [] _ h hs]
      unfold resolve
      have := split_append [] (c :: cs)
      rw [List.nil_append] at this
      simp [hc, this, go]
    · have hl : ∃ l, (name cwd).getLast? = some l ∧ slash l = false := by
        obtain ⟨ini, q, rfl⟩ := List.eq_nil_or_concat cwd |>.resolve_left h0
        have hq := h q (by simp)
        have hq1 : q.getLast? = some (q.getLast hq.1) := List.getLast?_eq_some_getLast hq.1
        refine ⟨q.getLast hq.1, ?_, ?_⟩
        · unfold name
          rw [if_neg h0]
          simp [List.getLast?_append, List.getLast?_cons, hq1]
        · have : q.getLast hq.1 ≠ '/' := fun e => hq.2.2.2 (e ▸ List.getLast_mem hq.1)
          simp [slash, this]
      obtain ⟨l, hl1, hl2⟩ := hl
      rw [hl1] at hp
      simp only [hl2, Bool.false_eq_true, if_false] at hp
      obtain rfl := Out.done.inj hp
      rw [List.append_assoc, show ['/'] ++ c :: cs = '/' :: c :: cs from rfl, full_eq wd _ hw (by simp), full_eq cwd _ h hs]
      have hh : (name cwd).head? = some '/' := by
        unfold name
        cases cwd with
        | nil => rfl
        | cons p ps => simp
      have hh2 : (name cwd ++ '/' :: c :: cs).head? = some '/' := by rw [List.head?_append, hh]; rfl
      unfold resolve at hr ⊢
      rw [if_pos hh] at hr
      rw [if_pos hh2, split_append, List.foldl_append, hr]
      simp [hc]

example : fullNameFor "/usr/lib".toList "../share/./x//y/../z".toList = .done "/usr/share/x/z".toList ∧
    fullNameFor "/usr/lib".toList "/../..".toList = .done "/".toList ∧ fullNameFor "/".toList "a".toList = .done "/a".toList ∧
    fullNameFor "/".toList [] = .error := by decide +kernel

/-! ### C179: extensions -/

/-- What is an extension of a name: it starts with the last dot of the last part, which is not the first character of that part. -/
def Extension (xs base ext : Txt) : Prop :=
  xs = base ++ ext ∧ base ≠ [] ∧ base.getLast? ≠ some '/' ∧ ∃ e, ext = '.' :: e ∧ '.' ∉ e ∧ '/' ∉ e

theorem dot_at (pre e : Txt) (h1 : '.' ∉ e) (h2 : '/' ∉ e) :
    findLast dotBlock (pre ++ '.' :: e) (pre ++ '.' :: e).length = some (pre.length + 1) := by
  have := findLast_skip dotBlock (pre ++ ['.']) e (by
    intro c hc
    have a1 : c ≠ '.' := fun x => h1 (x ▸ hc)
    have a2 : c ≠ '/' := fun x => h2 (x ▸ hc)
    simp [dotBlock, slash, a1, a2])
  rw [show pre ++ '.' :: e = pre ++ ['.'] ++ e by simp, this, findLast_snoc]
  rfl

theorem dot_slash (pre e : Txt) (h1 : '.' ∉ e) (h2 : '/' ∉ e) :
    findLast dotBlock (pre ++ '/' :: e) (pre ++ '/' :: e).length = none := by
  have := findLast_skip dotBlock (pre ++ ['/']) e (by
    intro c hc
    have a1 : c ≠ '.' := fun x => h1 (x ▸ hc)
    have a2 : c ≠ '/' := fun x => h2 (x ▸ hc)
    simp [dotBlock, slash, a1, a2])
  rw [show pre ++ '/' :: e = pre ++ ['/'] ++ e by simp, this, findLast_snoc]
  rfl

theorem dot_none (e : Txt) (h1 : '.' ∉ e) (h2 : '/' ∉ e) : findLast dotBlock e e.length = some 0 := by
  have := findLast_skip dotBlock [] e (by
    intro c hc
    have a1 : c ≠ '.' := fun x => h1 (x ▸ hc)
    have a2 : c ≠ '/' := fun x => h2 (x ▸ hc)
    simp [dotBlock, slash, a1, a2])
  rw [List.nil_append] at this
  rw [this]
  rfl

/-- The last dot or separator of a name. -/
theorem mark_split (xs : Txt) : ('.' ∉ xs ∧ '/' ∉ xs) ∨ ∃ pre c e, (c = '.' ∨ c = '/') ∧ xs = pre ++ c :: e ∧ '.' ∉ e ∧ '/' ∉ e := by
  induction xs with
  | nil => simp
  | cons c cs ih =>
    rcases ih with ⟨h1, h2⟩ | ⟨pre, d, e, hd, he, h1, h2⟩
    · by_cases hc : c = '.' ∨ c = '/'
      · exact .inr ⟨[], c, cs, hc, rfl, h1, h2⟩
      · rw [not_or] at hc
        exact .inl ⟨by simp [h1, Ne.symm hc.1], by simp [h2, Ne.symm hc.2]⟩
    · exact .inr ⟨c :: pre, d, e, hd, by rw [he]; rfl, h1, h2⟩

/-- A name with an extension is told from its extension. -/
theorem extension_found (xs base ext : Txt) (h : Extension xs base ext) : stripExtensionFrom xs = base ∧ extensionFor xs = ext := by
  obtain ⟨rfl, hb, hl, e, rfl, h1, h2⟩ := h
  have hi := dot_at base e h1 h2
  have hlen : ¬ base.length + 1 ≤ 1 := by cases base <;> simp_all
  have hx : (base ++ '.' :: e)[base.length + 1 - 2]? ≠ some '/' := by
    rw [List.getElem?_append_left (by omega)]
    rw [List.getLast?_eq_getElem?] at hl
    exact hl
  unfold stripExtensionFrom extensionFor
  have he : (base ++ '.' :: e).isEmpty = false := by cases base <;> simp_all
  simp only [he, Bool.false_eq_true, if_false, hi, if_neg hlen, if_neg hx, Nat.add_sub_cancel]
  exact ⟨copy_head base ('.' :: e), copy_tail base ('.' :: e)⟩

/-- A name with none is kept, and its extension is empty. -/
theorem extension_none (xs : Txt) (h : ∀ base ext, ¬ Extension xs base ext) : stripExtensionFrom xs = xs ∧ extensionFor xs = [] := by
  unfold stripExtensionFrom extensionFor
  by_cases he : xs = []
  · simp [he]
  · have he' : xs.isEmpty = false := by cases xs <;> simp_all
    simp only [he', Bool.false_eq_true, if_false]
    rcases mark_split xs with ⟨h1, h2⟩ | ⟨pre, c, e, rfl | rfl, rfl, h1, h2⟩
    · simp [dot_none xs h1 h2]
    · rw [dot_at pre e h1 h2]
      by_cases hp : pre = []
      · simp [hp]
      · have hpl : 0 < pre.length := List.length_pos_of_ne_nil hp
        by_cases hl : pre.getLast? = some '/'
        · have : (pre ++ '.' :: e)[pre.length + 1 - 2]? = some '/' := by
            rw [List.getElem?_append_left (by omega), ← hl, List.getLast?_eq_getElem?]
            congr 1
          simp only [this, if_true, ite_self, and_self]
        · exact absurd ⟨rfl, hp, hl, e, rfl, h1, h2⟩ (h pre ('.' :: e))
    · rw [dot_slash pre e h1 h2]
      exact ⟨rfl, rfl⟩

/-- What is stripped and the extension are the name. -/
theorem extension_back (xs : Txt) : stripExtensionFrom xs ++ extensionFor xs = xs := by
  by_cases h : ∃ base ext, Extension xs base ext
  · obtain ⟨base, ext, h⟩ := h
    rw [(extension_found xs base ext h).1, (extension_found xs base ext h).2, ← h.1]
  · have := extension_none xs fun b e hx => h ⟨b, e, hx⟩
    rw [this.1, this.2, List.append_nil]

/-- The parent directory has an extension, and without it it is the directory itself: the place that is left has not the same parent. -/
theorem extension_parent : stripExtensionFrom "..".toList = ".".toList ∧ extensionFor "..".toList = ".".toList ∧
    fullNameFor "/a/b".toList "..".toList = .done "/a".toList ∧
    fullNameFor "/a/b".toList (stripExtensionFrom "..".toList) = .done "/a/b".toList := by decide +kernel

/-- If the last part of a name is a file's and so is what is left of it, the file without the extension is in the same directory. -/
theorem extension_same (cwd : List Txt) (xs d g e : Txt) (hx : xs = d ++ '/' :: (g ++ '.' :: e)) (h1 : '.' ∉ e) (h2 : '/' ∉ e)
    (hf : Proper (g ++ '.' :: e)) (hg : Proper g) :
    stripExtensionFrom xs = d ++ '/' :: g ∧ resolve cwd (stripExtensionFrom xs) = (resolve cwd xs).dropLast ++ [g] := by
  have hs : stripExtensionFrom xs = d ++ '/' :: g := by
    refine (extension_found xs (d ++ '/' :: g) ('.' :: e) ⟨by rw [hx]; simp, by simp, ?_, e, rfl, h1, h2⟩).1
    obtain ⟨c, cs, rfl⟩ : ∃ c cs, g = c :: cs := by cases g with
      | nil => exact absurd rfl hg.1
      | cons c cs => exact ⟨c, cs, rfl⟩
    intro hl
    rw [List.getLast?_append, List.getLast?_cons_cons] at hl
    have : (c :: cs).getLast? = some '/' := by
      cases hq : (c :: cs).getLast? with
      | none => simp at hq
      | some q => rw [hq] at hl; exact hl
    exact hg.2.2.2 (List.mem_of_getLast? this)
  refine ⟨hs, ?_⟩
  rw [hs, hx]
  unfold resolve
  have head : (d ++ '/' :: g).head? = (d ++ '/' :: (g ++ '.' :: e)).head? := by cases d <;> simp
  rw [split_append, split_append, split_none g hg.2.2.2, split_none _ hf.2.2.2, List.foldl_append, List.foldl_append, head]
  generalize List.foldl go _ (d.splitOnP _) = pos
  simp only [List.foldl_cons, List.foldl_nil]
  rw [go_one _ _ hf, go_one _ _ hg, List.dropLast_concat]

example : stripExtensionFrom "/a/b.tar.gz".toList = "/a/b.tar".toList ∧ extensionFor "/a/b.tar.gz".toList = ".gz".toList ∧
    extensionFor "/a/.b".toList = [] ∧ extensionFor "/a.d/b".toList = [] ∧ extensionFor "b.".toList = ".".toList := by decide +kernel

/-! ### C180: directories and file names -/

/-- A name without a separator has no directory. -/
theorem parts_plain (xs none : Txt) (h : '/' ∉ xs) (hne : xs ≠ []) :
    stripPathFrom xs = xs ∧ pathFor xs none = none ∧ stripFileNameFor xs = "./".toList := by
  have he : xs.isEmpty = false := by cases xs <;> simp_all
  unfold stripPathFrom pathFor stripFileNameFor
  simp only [he, lastSlash_none xs h, Bool.false_eq_true, if_false, if_true]
  exact ⟨by simpa using copy_tail [] xs, trivial, rfl⟩

/-- Else the directory is what is before the last separator, or the root if nothing is, and the file name is what is after. -/
theorem parts_split (d f none : Txt) (h : '/' ∉ f) : stripPathFrom (d ++ '/' :: f) = f ∧
    pathFor (d ++ '/' :: f) none = (if d = [] then "/".toList else d) ∧ stripFileNameFor (d ++ '/' :: f) = d ++ "/".toList := by
  have he : (d ++ '/' :: f).isEmpty = false := by cases d <;> simp
  unfold stripPathFrom pathFor stripFileNameFor
  simp only [he, lastSlash_at d f h, Bool.false_eq_true, if_false, Nat.add_sub_cancel]
  have e : d ++ '/' :: f = (d ++ ['/']) ++ f := by simp
  have el : d.length + 1 = (d ++ ['/']).length := by simp
  have c1 : copyFrom (d ++ '/' :: f) (d.length + 1 + 1) (d ++ '/' :: f).length = f := by rw [el, e]; exact copy_tail _ _
  have c2 : copyFrom (d ++ '/' :: f) 1 (d.length + 1) = d ++ ['/'] := by rw [el, e]; exact copy_head _ _
  have c3 : copyFrom (d ++ '/' :: f) 1 d.length = d := copy_head _ _
  rw [c1, c2, c3]
  cases d with
  | nil => simp
  | cons c cs => simp

/-- Taking a name that was put together apart again. -/
theorem append_parts (f d none : Txt) (hf : '/' ∉ f) (hfn : f ≠ []) (hd : d ≠ []) (hl : d.getLast? ≠ some '/') :
    append f d = .done (d ++ "/".toList ++ f) ∧ pathFor (d ++ "/".toList ++ f) none = d ∧ stripPathFrom (d ++ "/".toList ++ f) = f := by
  have e : d ++ "/".toList ++ f = d ++ '/' :: f := by simp [show "/".toList = ['/'] from rfl]
  rw [e]
  refine ⟨?_, by rw [(parts_split d f none hf).2.1, if_neg hd], (parts_split d f none hf).1⟩
  unfold append
  cases f with
  | nil => exact absurd rfl hfn
  | cons c cs =>
    have hc : c ≠ '/' := by rintro rfl; simp at hf
    have : d.isEmpty = false := by cases d <;> simp_all
    simp only [this, Bool.false_eq_true, if_false, slash, hc, decide_false]
    rw [List.getLast?_eq_some_getLast hd] at hl ⊢
    have : d.getLast hd ≠ '/' := fun e => hl (by rw [e])
    simp [this]

/-- A name with a last part is put together from its directory and that part: it is the same file. -/
theorem append_back_partial (cwd : List Txt) (xs : Txt) (h : ∀ q ∈ cwd, Proper q) (hl : xs.getLast? ≠ some '/') (hne : xs ≠ []) :
    ∃ p, append (stripPathFrom xs) (pathFor xs []) = .done p ∧ fullNameFor (name cwd) p = fullNameFor (name cwd) xs := by
  by_cases hs : '/' ∈ xs
  · obtain ⟨d, f, rfl, hf⟩ := last_split '/' xs hs
    have hfn : f ≠ [] := by rintro rfl; simp at hl
    rw [(parts_split d f [] hf).1, (parts_split d f [] hf).2.1]
    obtain ⟨c, cs, rfl⟩ : ∃ c cs, f = c :: cs := by cases f with
      | nil => exact absurd rfl hfn
      | cons c cs => exact ⟨c, cs, rfl⟩
    have hc : c ≠ '/' := by rintro rfl; simp at hf
    by_cases hd : d = []
    · subst hd
      refine ⟨'/' :: c :: cs, ?_, by simp⟩
      simp [append, slash, hc, show "/".toList = ['/'] from rfl]
    · rw [if_neg hd]
      by_cases hdl : d.getLast? = some '/'
      · refine ⟨d ++ c :: cs, ?_, ?_⟩
        · unfold append
          have : d.isEmpty = false := by cases d <;> simp_all
          simp [this, slash, hc, hdl]
        · obtain ⟨ini, q, rfl⟩ := List.eq_nil_or_concat d |>.resolve_left hd
          have hq : q = '/' := by simpa using hdl
          subst hq
          rw [full_eq cwd _ h (by simp), full_eq cwd _ h (by simp)]
          have e1 : ini.concat '/' ++ c :: cs = ini ++ '/' :: c :: cs := by simp
          have e2 : ini.concat '/' ++ '/' :: c :: cs = ini ++ '/' :: ([] ++ '/' :: c :: cs) := by simp
          rw [e1, e2]
          unfold resolve
          have head : (ini ++ '/' :: ([] ++ '/' :: c :: cs)).head? = (ini ++ '/' :: c :: cs).head? := by cases ini <;> simp
          rw [head, split_append, split_append, split_append, split_none [] (by simp)]
          simp [List.foldl_append, go]
      · refine ⟨_, (append_parts (c :: cs) d [] hf (by simp) hd hdl).1, ?_⟩
        simp [show "/".toList = ['/'] from rfl]
  · have := parts_plain xs [] hs hne
    rw [this.1, this.2.1]
    exact ⟨xs, by simp [append], rfl⟩

/-- The directory with the final separator, put before the file name, is the same file, whatever the name. -/
theorem strip_back (cwd : List Txt) (xs : Txt) (h : ∀ q ∈ cwd, Proper q) (hne : xs ≠ []) :
    fullNameFor (name cwd) (stripFileNameFor xs ++ stripPathFrom xs) = fullNameFor (name cwd) xs := by
  by_cases hs : '/' ∈ xs
  · obtain ⟨d, f, rfl, hf⟩ := last_split '/' xs hs
    rw [(parts_split d f [] hf).1, (parts_split d f [] hf).2.2]
    simp [show "/".toList = ['/'] from rfl]
  · have hp := parts_plain xs [] hs hne
    rw [hp.1, hp.2.2, full_eq cwd _ h (by simp), full_eq cwd _ h hne]
    have e : "./".toList ++ xs = ['.'] ++ '/' :: xs := rfl
    have hh : xs.head? ≠ some '/' := by
      intro hh
      exact hs (List.mem_of_mem_head? hh)
    rw [e]
    unfold resolve
    rw [split_append, split_none ['.'] (by simp), if_neg hh]
    simp [go]

/-- A name that ends in a separator, as those of directories do, cannot be put together from its directory and its last part. -/
theorem append_back_fails : pathFor "/usr/lib/".toList [] = "/usr/lib".toList ∧ stripPathFrom "/usr/lib/".toList = [] ∧
    append (stripPathFrom "/usr/lib/".toList) (pathFor "/usr/lib/".toList []) = .error := by decide +kernel

example : ∃ p, append (stripPathFrom "a//b".toList) (pathFor "a//b".toList []) = .done p ∧
    fullNameFor (name ["w".toList]) p = fullNameFor (name ["w".toList]) "a//b".toList :=
  append_back_partial _ _ (by decide) (by decide) (by decide)

/-! ### C181: the way from one file to another -/

theorem compute_eq (src dest : List Txt) (hs : ∀ q ∈ src, Proper q) (hd : ∀ q ∈ dest, Proper q) (hne : src ≠ [])
    (hx : dest ≠ [] ∨ src.length ≠ 1) : ∃ r, computePath (name src) (name dest) = .done r ∧ r ≠ [] ∧ resolve src.dropLast r = dest ∧
      ((src.length = 1 ∨ src.head? = dest.head?) → r.head? ≠ some '/') := by
  unfold computePath
  rw [sub_name src hs, sub_name dest hd]
  have he : src.isEmpty = false := by cases src <;> simp_all
  simp only [he, Bool.false_eq_true, if_false]
  have hsd : ∀ q ∈ src.dropLast, Proper q := fun q hq => hs q (List.mem_of_mem_dropLast hq)
  have hdl : src.dropLast = [] ↔ src.length = 1 := by
    rw [← List.length_eq_zero_iff, List.length_dropLast]
    have : src.length ≠ 0 := by simpa using hne
    omega
  have hhd : src.length ≠ 1 → src.dropLast.head? = src.head? := by
    intro h1
    cases src with
    | nil => rfl
    | cons a as => cases as with
      | nil => simp at h1
      | cons b bs => simp
  by_cases hde : dest = []
  · subst hde
    have h1 : src.length ≠ 1 := hx.resolve_left (by simp)
    have h2 : src.dropLast.isEmpty = false := by cases hh : src.dropLast with
      | nil => exact absurd (hdl.1 hh) h1
      | cons a as => rfl
    have h3 : src.dropLast.head? ≠ some ([] : Txt) := fun hh => (hsd [] (List.mem_of_mem_head? hh)).1 rfl
    have h4 : ¬ (src.dropLast.isEmpty = true ∨ src.dropLast.head? = some ([] : Txt)) := by simp [h2, h3]
    simp only [List.isEmpty_nil, if_true, List.head?_cons]
    rw [if_neg h4]
    refine ⟨['/'], rfl, by simp, by simp [resolve, List.splitOnP_cons_eq_if_modifyHead, go], ?_⟩
    rintro (h | h)
    · exact absurd h h1
    · simp at h; exact absurd h hne
  · have hde' : dest.isEmpty = false := by cases dest <;> simp_all
    simp only [hde', Bool.false_eq_true, if_false]
    by_cases hc : src.dropLast.isEmpty = true ∨ src.dropLast.head? = dest.head?
    · rw [if_pos hc]
      obtain ⟨com, e1, e2, e3⟩ := dropCommon_spec src.dropLast dest hde
      generalize dropCommon src.dropLast dest = r at e1 e2 e3
      obtain ⟨s', d'⟩ := r
      simp only at e1 e2 e3 ⊢
      obtain ⟨q, qs, rfl⟩ : ∃ q qs, d' = q :: qs := by cases d' with
        | nil => exact absurd rfl e3
        | cons q qs => exact ⟨q, qs, rfl⟩
      have hmap : s'.map (fun _ => ['.', '.']) = List.replicate s'.length ['.', '.'] := by simp [List.map_const']
      rw [hmap]
      obtain ⟨p, ps, hp⟩ : ∃ p ps, List.replicate s'.length ['.', '.'] ++ q :: qs = p :: ps := by
        cases hh : List.replicate s'.length ['.', '.'] ++ q :: qs with
        | nil => simp at hh
        | cons p ps => exact ⟨p, ps, rfl⟩
      rw [hp, fold_slash]
      have hall : ∀ w ∈ p :: ps, w ≠ [] ∧ '/' ∉ w := by
        rw [← hp]
        intro w hw
        rcases List.mem_append.1 hw with hw | hw
        · rw [(List.mem_replicate.1 hw).2]; simp
        · have := hd w (by rw [e2]; simp only [List.mem_append]; exact .inr hw)
          exact ⟨this.1, this.2.2.2⟩
      have hpn := (hall p (by simp)).1
      refine ⟨_, rfl, by simp [hpn], ?_, ?_⟩
      · rw [resolve_parts _ p ps (fun w hw => (hall w hw).2) hpn, ← hp, List.foldl_append, go_up, e1]
        rw [go_down (q :: qs) _ fun w hw => hd w (by rw [e2]; simp only [List.mem_append]; exact .inr hw)]
        rw [List.length_append, Nat.add_sub_cancel, List.take_left' rfl, ← e2]
      · intro _
        obtain ⟨c, cs, rfl⟩ : ∃ c cs, p = c :: cs := by cases p with
          | nil => exact absurd rfl hpn
          | cons c cs => exact ⟨c, cs, rfl⟩
        have := (hall (c :: cs) (by simp)).2
        simp only [List.cons_append, List.head?_cons, ne_eq, Option.some.injEq]
        rintro rfl
        simp at this
    · rw [if_neg hc, show [[]] ++ dest = [] :: dest from rfl, fold_slash, List.nil_append]
      have hn : (dest.flatMap fun q => '/' :: q) = name dest := by unfold name; rw [if_neg hde]
      rw [hn]
      refine ⟨_, rfl, name_ne _, resolve_name _ _ hd, ?_⟩
      rw [not_or] at hc
      have h1 : src.length ≠ 1 := fun h => hc.1 (by simp [hdl.2 h])
      rintro (h | h)
      · exact absurd h h1
      · exact absurd ((hhd h1).trans h) hc.2

/-- In the directory of the source, the path from it to a destination means the destination; and it is relative if the two have their
first directory in common.  Not so if the source is the root, or if the destination is and the source is in it. -/
theorem path_from_partial (cwd : List Txt) (src dest : Txt) (h : ∀ q ∈ cwd, Proper q) (hs : src ≠ []) (hd : dest ≠ [])
    (hr : resolve cwd src ≠ []) (hx : resolve cwd dest ≠ [] ∨ (resolve cwd src).length ≠ 1) :
    ∃ r, pathFrom (name cwd) src dest = .done r ∧
      fullNameFor (name (resolve cwd src).dropLast) r = fullNameFor (name cwd) dest ∧
      ((resolve cwd src).length = 1 ∨ (resolve cwd src).head? = (resolve cwd dest).head? → r.head? ≠ some '/') := by
  have p1 := resolve_proper cwd src h
  obtain ⟨r, h1, h2, h3, h4⟩ := compute_eq _ _ p1 (resolve_proper cwd dest h) hr hx
  refine ⟨r, ?_, ?_, h4⟩
  · unfold pathFrom
    rw [full_eq cwd src h hs, full_eq cwd dest h hd]
    exact h1
  · rw [full_eq _ r (fun q hq => p1 q (List.mem_of_mem_dropLast hq)) h2, h3, full_eq cwd dest h hd]

/-- From a file in the root to the root the path is empty, which is no name; from the root there is none. -/
theorem path_from_fails : pathFrom "/".toList "/x".toList "/".toList = .done [] ∧ fullNameFor "/".toList [] = .error ∧
    append [] "/".toList = .error ∧ pathFrom "/".toList "/".toList "/x".toList = .error := by decide +kernel

example : pathFrom "/w".toList "a/b/c".toList "a/d/e".toList = .done "../d/e".toList ∧
    pathFrom "/w".toList "/usr/x".toList "/usr".toList = .done "../usr".toList ∧
    pathFrom "/w".toList "/usr/x".toList "/".toList = .done "/".toList ∧
    pathFrom "/w".toList "/usr/x".toList "/bin/y".toList = .done "/bin/y".toList := by decide +kernel

end Verif.Paths
