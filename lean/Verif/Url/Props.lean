import Verif.Url.Proofs

/-!
# Properties of URLs (C168-C174)
-/

namespace Verif.Url
open Verif.Strings

/-! ### C168 -/

/-- Texts of bytes are encoded, in letters, digits and `- _ . * + %`, and come back. -/
theorem encoded_text (xs : Txt) (h : ∀ c ∈ xs, c.toNat < 256) : ∃ e, encode xs = .done e ∧ decode e = .done xs ∧
    ∀ c ∈ e, isAlphaNumeric c ∨ c ∈ ['-', '_', '.', '*', '+', '%'] := encode_decode xs h

example : encode "a b/é".toList = .done "a+b%2F%E9".toList := by decide +kernel

/-- Escapes in lower case are as good as those in upper case (RFC 3986, 2.1); here they are errors, wherever they are. -/
theorem lower_escape_fails (c d : Char) (hc : c ∈ "abcdef".toList) (xs rest : Txt) (hx : ∀ c ∈ xs, c ≠ '%') :
    decode (xs ++ '%' :: c :: d :: rest) = .error ∧ decode (xs ++ '%' :: d :: c :: rest) = .error := by
  have hv : digitValue c = none := by
    revert c
    decide
  have h0 : decode ('%' :: c :: d :: rest) = .error := by
    rw [show decode ('%' :: c :: d :: rest) = (match digitValue c, digitValue d with
      | some x, some y =>
        if 256 ≤ x * 16 + y then Out.error else (decode rest).bind fun r => Out.done (Char.ofNat (x * 16 + y) :: r)
      | _, _ => Out.error) from rfl, hv]
  have h1 : decode ('%' :: d :: c :: rest) = .error := by
    rw [show decode ('%' :: d :: c :: rest) = (match digitValue d, digitValue c with
      | some x, some y =>
        if 256 ≤ x * 16 + y then Out.error else (decode rest).bind fun r => Out.done (Char.ofNat (x * 16 + y) :: r)
      | _, _ => Out.error) from rfl, hv]
    cases digitValue d <;> rfl
  have key : ∀ t : Txt, decode t = .error → decode (xs ++ t) = .error := by
    intro t ht
    induction xs with
    | nil => exact ht
    | cons x xs ih =>
      have hi := ih (fun c hc => hx c (by simp [hc]))
      rw [List.cons_append]
      by_cases hp : x = '+'
      · subst hp
        rw [show decode ('+' :: (xs ++ t)) = (decode (xs ++ t)).bind fun r => .done (' ' :: r) from rfl, hi]
        rfl
      · rw [decode_cons hp (hx x (by simp)), hi]
        rfl
  exact ⟨key _ h0, key _ h1⟩

example : decode "%2F".toList = .done "/".toList ∧ decode "%2f".toList = .error := by decide

/-! ### C169 -/

/-- What is printed for a URL is read as the same URL: proved for URLs with a scheme and a host whose parts have none of the
characters that end them. -/
theorem print_read_partial (n : ℕ) (u : URL) (hu : Plain u) : fromString (n + 2) (print u) = .done u := fromString_print n u hu

example : Plain ⟨some "http".toList, some "me".toList, some "pw:x".toList, some "www.gnu.org".toList, 8080, some "/a/b".toList,
    some "x=1?".toList, some "top#".toList⟩ where
  scheme := ⟨_, rfl, by decide, by decide⟩
  username := by rintro t ht; cases ht; exact ⟨by decide, by unfold Without; decide⟩
  password := by rintro t ht; cases ht; exact ⟨by decide, by unfold Without; decide, by decide⟩
  host := ⟨_, rfl, by decide, by unfold Without; decide⟩
  port := by decide
  path := by rintro t ht; cases ht; exact ⟨rfl, by decide, by unfold Without; decide⟩
  query := by rintro t ht; cases ht; decide
  fragment := by rintro t ht; cases ht; decide

example : print ⟨some "http".toList, none, none, some "www".toList, 80, none, none, none⟩ = "http://www:80/".toList := by decide +kernel

/-- URLs that were read from a text, without a scheme, or with a question mark after the fragment, do not print as that text, and
print as something else. -/
theorem print_read_fails :
    (∃ u v, fromString 5 "//www/x".toList = .done u ∧ print u = "www/x".toList ∧ fromString 5 (print u) = .done v ∧ u.host = some "www".toList ∧
      v.host = none) ∧
    (∃ u, fromString 5 "http://h/#a?b".toList = .done u ∧ print u = "http://h/?b#a".toList) ∧
    (∃ u, fromString 5 "#a".toList = .done u ∧ print u = "/#a".toList) ∧
    (∃ u, fromString 5 "http://h".toList = .done u ∧ print u = "http://h/".toList) := by
  refine ⟨⟨_, _, rfl, by decide +kernel, rfl, rfl, rfl⟩, ⟨_, rfl, by decide +kernel⟩, ⟨_, rfl, by decide +kernel⟩, ⟨_, rfl, by decide +kernel⟩⟩

/-! ### C170 -/

/-- Reading a URL is forever when nothing comes after the at sign. -/
theorem read_never (n : ℕ) (s w : Txt) (s1 : s ≠ []) (s2 : ∀ c ∈ s, isAlphaNumeric c = true ∨ c = '+')
    (hw : Without ['/', '?', '#'] w) : fromString n (s ++ "://".toList ++ w ++ ['@']) = .never := by
  have := never_at n s w s1 s2 hw
  simpa using this

example : ∀ n, fromString n "http://me@".toList = .never := fun n =>
  read_never n "http".toList "me".toList (by decide) (by decide) (by unfold Without; decide)

theorem readUntil_cases (stop : Char → Bool) : ∀ (xs : Txt) (ch : Option Char), (xs = [] ∧ (readUntil stop ch xs).2 = (ch, [])) ∨
    ∃ w d, xs = w ++ d :: (readUntil stop ch xs).2.2 ∧ (readUntil stop ch xs).2.1 = some d := by
  intro xs
  induction xs with
  | nil => intro ch; exact Or.inl ⟨rfl, rfl⟩
  | cons c cs ih =>
    intro ch
    right
    unfold readUntil
    by_cases hc : stop c = true
    · rw [if_pos hc]; exact ⟨[], c, rfl, rfl⟩
    · rw [if_neg hc]
      simp only
      rcases ih (some c) with ⟨h1, h2⟩ | ⟨w, d, h1, h2⟩
      · rw [h2, h1]; exact ⟨[], c, rfl, rfl⟩
      · refine ⟨c :: w, d, ?_, h2⟩
        rw [List.cons_append, ← h1]

theorem auth_returns : ∀ (n : ℕ) (a : Auth) (ch : Option Char) (xs : Txt), xs.length < n → (xs ≠ [] ∨ ch ≠ some '@') →
    xs.getLast? ≠ some '@' → authLoop n a ch xs ≠ .never := by
  have hlast : ∀ (w rest : Txt) (d : Char), (w ++ d :: rest).getLast? ≠ some '@' →
      (rest ≠ [] ∨ some d ≠ some '@') ∧ rest.getLast? ≠ some '@' := by
    intro w rest d h
    cases rest with
    | nil => simp only [List.getLast?_append, List.getLast?_singleton, Option.some_or] at h; exact ⟨Or.inr h, by simp⟩
    | cons x xs => exact ⟨Or.inl (by simp), by simpa using h⟩
  intro n
  induction n with
  | zero => intro a ch xs h; omega
  | succ n ih =>
    intro a ch xs hl hne hlst
    rw [auth_succ]
    simp only
    have hfin : ∀ (a : Auth) (c : Option Char) (rest : Txt), (rest ≠ [] ∨ c ≠ some '@') → rest.getLast? ≠ some '@' →
        (c = some '@' → rest.length < n) → finish n a c rest ≠ .never := by
      intro a c rest h1 h2 h3
      unfold finish
      by_cases hc : c = some '@'
      · rw [if_pos hc]; exact ih _ _ _ (h3 hc) h1 h2
      · rw [if_neg hc]; simp
    rcases readUntil_cases (fun c => decide (c = '/' ∨ c = ':' ∨ c = '@')) xs ch with ⟨h1, h2⟩ | ⟨w, d, h1, h2⟩
    · subst h1
      have hc : ch ≠ some '@' := by
        rcases hne with h | h
        · exact absurd rfl h
        · exact h
      rw [h2]
      by_cases hd : ch = some ':'
      · rw [if_pos hd]
        exact hfin _ _ _ (Or.inr hc) (by simp [readUntil]) (fun h => absurd h hc)
      · rw [if_neg hd]
        exact hfin _ _ _ (Or.inr hc) (by simp) (fun h => absurd h hc)
    · rw [h1] at hlst
      obtain ⟨k1, k2⟩ := hlast _ _ _ hlst
      have hlen := congrArg List.length h1
      rw [List.length_append, List.length_cons] at hlen
      rw [h2]
      by_cases hd : d = ':'
      · subst hd
        rw [if_pos rfl]
        rcases readUntil_cases (fun c => decide (c = '/' ∨ c = '@'))
            (readUntil (fun c => decide (c = '/' ∨ c = ':' ∨ c = '@')) ch xs).2.2 (some ':') with ⟨g1, g2⟩ | ⟨w', d', g1, g2⟩
        · rw [g2]
          exact hfin _ _ _ (Or.inr (by decide)) (by simp) (fun h => absurd h (by decide))
        · rw [g1] at k2
          obtain ⟨l1, l2⟩ := hlast _ _ _ k2
          have hlen' := congrArg List.length g1
          rw [List.length_append, List.length_cons] at hlen'
          rw [g2]
          exact hfin _ _ _ l1 l2 (fun _ => by omega)
      · rw [if_neg (by simpa using hd)]
        simp only
        rw [h2]
        exact hfin _ _ _ k1 k2 (fun _ => by omega)

/-- Where the front part ends (as in `fromString`). -/
def limit (xs : Txt) : ℕ :=
  let l := if indexOf '?' xs ≠ 0 then indexOf '?' xs else xs.length + 1
  if indexOf '#' xs ≠ 0 then min l (indexOf '#' xs) else l

theorem indexOf_cons (d c : Char) (cs : Txt) : indexOf d (c :: cs) = if c = d then 1 else if indexOf d cs = 0 then 0 else indexOf d cs + 1 := by
  unfold indexOf
  by_cases h : c = d
  · subst h; simp
  · have h' : ¬ d = c := fun e => h e.symm
    rw [if_neg h, List.idxOf_cons_ne _ h]
    by_cases hm : d ∈ cs <;> simp [h', hm]

theorem front_eq (xs : Txt) : copyFrom xs 1 (limit xs - 1) = xs.takeWhile fun c => c ≠ '?' ∧ c ≠ '#' := by
  rw [copyFrom_one]
  induction xs with
  | nil => rfl
  | cons c cs ih =>
    rw [List.takeWhile_cons]
    by_cases h : c = '?' ∨ c = '#'
    · have h1 : limit (c :: cs) = 1 := by
        unfold limit
        rw [indexOf_cons, indexOf_cons]
        simp only [List.length_cons]
        rcases h with h | h
        · subst h
          by_cases hf : indexOf '#' cs = 0 <;> simp [hf]
        · subst h
          by_cases hq : indexOf '?' cs = 0 <;> simp [hq]
      have : decide (c ≠ '?' ∧ c ≠ '#') = false := by
        rcases h with h | h <;> simp [h]
      rw [h1, this]
      rfl
    · rw [not_or] at h
      have h1 : limit (c :: cs) = limit cs + 1 ∧ 1 ≤ limit cs := by
        unfold limit
        rw [indexOf_cons, indexOf_cons, if_neg h.1, if_neg h.2]
        simp only [List.length_cons]
        by_cases hq : indexOf '?' cs = 0 <;> by_cases hf : indexOf '#' cs = 0 <;> simp [hq, hf] <;> omega
      rw [h1.1, show limit cs + 1 - 1 = limit cs - 1 + 1 by omega, List.take_succ_cons, ih]
      simp [h]

/-- Reading comes back for each text: proved when the part before the first question or number sign does not end in an at sign. -/
theorem read_returns_partial (xs : Txt) (h : (xs.takeWhile fun c => c ≠ '?' ∧ c ≠ '#').getLast? ≠ some '@') :
    ∃ n, fromString n xs ≠ .never := by
  have hu : ∀ ys : Txt, ys.getLast? ≠ some '@' → fromURLString (ys.length + 1) ys ≠ .never := by
    intro ys hy
    have hgo : ∀ (zs : Txt) (c : Option Char), zs.length ≤ ys.length → zs.take 2 = ['/', '/'] → zs.getLast? ≠ some '@' → c ≠ some '@' →
        authLoop (ys.length + 1) ⟨none, none, none, none⟩ c (zs.drop 2) ≠ .never := by
      intro zs c h1 h2 h3 h4
      refine auth_returns _ _ _ _ (by rw [List.length_drop]; omega) (Or.inr h4) ?_
      intro h5
      refine h3 ?_
      rw [← List.take_append_drop 2 zs, List.getLast?_append, h5]
      rfl
    have hbind : ∀ (o : Out (Auth × Option Char × Txt)) (f : Auth × Option Char × Txt → URL), o ≠ .never →
        (o.bind fun s => .done (f s)) ≠ .never := by
      intro o f ho
      cases o <;> simp_all [Out.bind]
    unfold fromURLString
    simp only
    generalize hr : readUntil (fun c => !isAlphaNumeric c && decide (c ≠ '+')) none ys = r
    by_cases hn : r.1 = [] ∨ r.2.1 ≠ some ':'
    · simp only [hn, decide_true, if_true]
      split
      · next ht =>
        refine hbind _ _ (hgo _ _ (le_refl _) ht hy ?_)
        obtain ⟨tl, rfl⟩ : ∃ tl, ys = '/' :: tl := by
          cases ys with
          | nil => simp at ht
          | cons y tl => simp at ht; exact ⟨tl, by rw [ht.1]⟩
        rw [← hr, show readUntil (fun c => !isAlphaNumeric c && decide (c ≠ '+')) none ('/' :: tl) = ([], some '/', tl) from rfl]
        simp
      · simp
    · simp only [hn, decide_false, Bool.false_eq_true, if_false]
      rw [not_or, not_not] at hn
      split
      · next ht =>
        have hc := readUntil_cases (fun c => !isAlphaNumeric c && decide (c ≠ '+')) ys none
        rw [hr] at hc
        rcases hc with ⟨_, h2⟩ | ⟨w, d, h1, _⟩
        · rw [h2] at hn; simp at hn
        · refine hbind _ _ (hgo _ _ ?_ ht ?_ (by rw [hn.2]; decide))
          · rw [h1, List.length_append, List.length_cons]; omega
          · intro h3
            rw [h1, List.getLast?_append, List.getLast?_cons, h3] at hy
            exact hy rfl
      · simp
  refine ⟨(xs.takeWhile fun c => c ≠ '?' ∧ c ≠ '#').length + 1, ?_⟩
  have := hu _ h
  unfold fromString
  simp only
  have e := front_eq xs
  unfold limit at e
  simp only at e
  rw [e]
  revert this
  generalize fromURLString _ _ = o
  intro ho
  cases o <;> simp_all [Out.bind]

example : ("http://me@h?x@".toList.takeWhile fun c => c ≠ '?' ∧ c ≠ '#').getLast? ≠ some '@' := by decide

/-! ### C171 -/

/-- The answer is made of components none of which is empty, `.` or `..`: it is never outside of the root.  It ends with a slash
if it is the root or the second path does. -/
theorem path_normal (p1 p2 : Txt) : ∃ st : List Txt, (∀ q ∈ st, q ≠ [] ∧ q ≠ ".".toList ∧ q ≠ "..".toList ∧ '/' ∉ q) ∧
    constructPath p1 p2 = st.flatMap (fun p => '/' :: p) ++ if st = [] ∨ p2.getLast? = some '/' then ['/'] else [] := by
  have h := fold_normal (parts p2) _ (base_normal p1 p2) (parts_noslash p2)
  refine ⟨_, h, ?_⟩
  rw [construct_eq]
  generalize (parts p2).foldl pathStep _ = st
  unfold render
  by_cases hs : st = []
  · simp [hs]
  · simp [hs]

/-- A path that starts with a slash does not depend on the other. -/
theorem path_absolute (p1 p1' tl : Txt) : constructPath p1 ('/' :: tl) = constructPath p1' ('/' :: tl) := by
  simp [construct_eq]

/-- A path that was answered stays. -/
theorem path_again (p p1 p2 : Txt) : constructPath p (constructPath p1 p2) = constructPath p1 p2 := by
  have hn := fold_normal (parts p2) _ (base_normal p1 p2) (parts_noslash p2)
  rw [construct_eq p1 p2]
  generalize (parts p2).foldl pathStep _ = st at hn
  generalize decide (p2.getLast? = some '/') = b
  rw [construct_eq]
  have hh : (render st b).head? = some '/' := by
    unfold render
    cases st <;> simp
  rw [if_pos hh, parts_render st b hn []]
  have hl := render_last st b hn
  unfold render at hl ⊢
  by_cases hs : st = []
  · simp [hs]
  · simp only [hs, if_false, false_or, List.nil_append] at hl ⊢
    cases b <;> simp_all

theorem inter_render : ∀ refs : List Txt, refs ≠ [] → '/' :: ['/'].intercalate refs = render refs false := by
  intro refs hne
  unfold render
  rw [if_neg hne]
  simp only [Bool.false_eq_true, if_false, List.append_nil]
  induction refs with
  | nil => exact absurd rfl hne
  | cons q qs ih =>
    cases qs with
    | nil => simp [List.intercalate]
    | cons q' qs' =>
      have := ih (by simp)
      rw [List.flatMap_cons, ← this]
      simp [List.intercalate]

/-- The path of a file in some directories, and a relative path that goes up some levels: the levels are taken away, the rest is added. -/
theorem path_relative (dirs refs : List Txt) (f : Txt) (k : ℕ) (hd : ∀ q ∈ dirs, Normal q) (hr : ∀ q ∈ refs, Normal q) (hf : Normal f)
    (hne : refs ≠ []) :
    constructPath ((dirs ++ [f]).flatMap fun p => '/' :: p) ((List.replicate k "../".toList).flatten ++ ['/'].intercalate refs) =
      (dirs.take (dirs.length - k) ++ refs).flatMap fun p => '/' :: p := by
  have hb : ((dirs ++ [f]).flatMap fun p => '/' :: p) = render (dirs ++ [f]) false := by
    unfold render
    rw [if_neg (by simp)]
    simp
  have hdf : ∀ q ∈ dirs ++ [f], Normal q := by
    intro q hq
    rcases List.mem_append.1 hq with hq | hq
    · exact hd q hq
    · rw [List.mem_singleton.1 hq]; exact hf
  have hi := inter_render refs hne
  have hfold : ∀ acc : List Txt, (parts (['/'].intercalate refs)).foldl pathStep acc = acc ++ refs := by
    intro acc
    have h := parts_render refs false hr acc
    rw [← hi] at h
    have h2 := parts_append [] (['/'].intercalate refs) (by simp)
    rw [List.nil_append] at h2
    rw [h2, List.foldl_cons, show pathStep acc [] = acc by simp [pathStep]] at h
    exact h
  have hup : ∀ (k : ℕ) (acc : List Txt), (parts ((List.replicate k "../".toList).flatten ++ ['/'].intercalate refs)).foldl pathStep acc =
      acc.take (acc.length - k) ++ refs := by
    intro k
    induction k with
    | zero => intro acc; simpa using hfold acc
    | succ k ih =>
      intro acc
      have h2 := parts_append ['.', '.'] ((List.replicate k "../".toList).flatten ++ ['/'].intercalate refs) (by decide)
      rw [List.replicate_succ, List.flatten_cons, List.append_assoc,
        show "../".toList ++ ((List.replicate k "../".toList).flatten ++ ['/'].intercalate refs) =
          ['.', '.'] ++ '/' :: ((List.replicate k "../".toList).flatten ++ ['/'].intercalate refs) from rfl, h2, List.foldl_cons,
        show pathStep acc ['.', '.'] = acc.dropLast by simp [pathStep], ih]
      rw [List.length_dropLast, List.dropLast_eq_take, List.take_take]
      congr 2
      omega
  have hin : ['/'].intercalate refs ≠ [] ∧ (['/'].intercalate refs).head? ≠ some '/' := by
    cases refs with
    | nil => exact absurd rfl hne
    | cons q qs =>
      obtain ⟨q1, _, _, q4⟩ := hr q (by simp)
      cases q with
      | nil => exact absurd rfl q1
      | cons x xs =>
        have hx : x ≠ '/' := by rintro rfl; simp at q4
        cases qs <;> simp [List.intercalate, hx]
  have hlast : (['/'].intercalate refs).getLast? ≠ some '/' := by
    intro h
    have h2 := (render_last refs false hr).1 (by rw [← hi, List.getLast?_cons, h]; rfl)
    simp [hne] at h2
  have hlast2 : ((List.replicate k "../".toList).flatten ++ ['/'].intercalate refs).getLast? ≠ some '/' := by
    rw [List.getLast?_append_of_ne_nil _ hin.1]
    exact hlast
  have hhead : ((List.replicate k "../".toList).flatten ++ ['/'].intercalate refs).head? ≠ some '/' := by
    cases k with
    | zero => simpa using hin.2
    | succ k => rw [List.replicate_succ, List.flatten_cons]; simp
  rw [hb, construct_eq, if_neg hhead]
  simp only
  rw [parts_render _ false hdf [], if_neg (by rw [render_last _ _ hdf]; simp), List.nil_append, List.dropLast_concat, hup, decide_eq_false hlast2]
  unfold render
  rw [if_neg (by simp [hne])]
  simp

example : constructPath "/a/b/c.html".toList "../d/e".toList = "/a/d/e".toList := by decide

/-- RFC 3986, 5.2.4 and 5.4: `..` at the end names the directory, with its slash, and dots in the path of the base are not special
before the last component is taken away. -/
theorem path_differs : constructPath "/a/b/c".toList "..".toList = "/a".toList ∧ constructPath "/a/b/c".toList ".".toList = "/a/b".toList ∧
    constructPath "/a/b/..".toList "c".toList = "/c".toList ∧ constructPath "/a/b/c".toList "".toList = "/a/b".toList := by decide

/-! ### C172 -/

/-- No two URLs are ever found to be equal, and a URL is not equal to itself but an error, when its text can be decoded. -/
theorem equal_never (hash : Txt → ℕ) (a b : URL) : equal hash a b ≠ .done true := by
  unfold equal
  cases decode (print a) with
  | error => simp [Out.bind]
  | never => simp [Out.bind]
  | done x =>
    cases decode (print b) with
    | error => simp [Out.bind]
    | never => simp [Out.bind]
    | done y =>
      simp only [Out.bind]
      split
      · simp
      · cases hs : sameOrNil a.scheme b.scheme with
        | error => simp
        | never => simp
        | done s =>
          simp only
          split
          · simp
          · cases hh : sameOrNil a.host b.host with
            | error => simp
            | never => simp
            | done h =>
              simp only
              split
              · simp
              · split <;> simp

theorem decode_ne_never (xs : Txt) : decode xs ≠ .never := by
  have hb : ∀ (o : Out Txt) (f : Txt → Txt), o ≠ .never → (o.bind fun r => .done (f r)) ≠ .never := by
    intro o f ho
    cases o <;> simp_all [Out.bind]
  have key : ∀ (n : ℕ) (xs : Txt), xs.length ≤ n → decode xs ≠ .never := by
    intro n
    induction n with
    | zero =>
      intro xs h
      obtain rfl : xs = [] := List.length_eq_zero_iff.1 (by omega)
      simp [decode]
    | succ n ih =>
      intro xs h
      unfold decode
      split
      · simp
      · simp only [List.length_cons] at h
        exact hb _ _ (ih _ (by omega))
      · simp only [List.length_cons] at h
        split
        · split
          · simp
          · exact hb _ _ (ih _ (by omega))
        · simp
      · simp
      · simp
      · simp only [List.length_cons] at h
        exact hb _ _ (ih _ (by omega))
  exact key _ xs (le_refl _)

theorem equal_self (hash : Txt → ℕ) (a : URL) : equal hash a a = .error := by
  have hs : ∀ t, sameOrNil t t = .done true := by intro t; cases t <;> simp [sameOrNil]
  have hn := decode_ne_never (print a)
  unfold equal
  cases h : decode (print a) <;> simp_all [Out.bind]

/-- URLs that differ in the case of their host only are to be equal; the test is false when their hashes differ,
and gets past the hosts when they do not. -/
theorem equal_case : ∃ (hash : Txt → ℕ) (a b : URL), fromString 5 "http://www/".toList = .done a ∧ fromString 5 "http://WWW/".toList = .done b ∧
    equal hash a b = .done false ∧ equal (fun _ => 0) a b = .error :=
  ⟨fun t => if t = "http://www/".toList then 1 else 0, _, _, rfl, rfl, by decide +kernel, by decide +kernel⟩

/-! ### C173 -/

/-- The text of a form, and what it is decoded to: for each key the values, in order; one value alone, more in a collection. -/
theorem fields_read (u : URL) (fs : List (Txt × Txt)) (texts : List Txt)
    (hf : ∀ f ∈ fs, '=' ∉ f.1 ∧ '&' ∉ f.1 ∧ f.2 ≠ [] ∧ ∀ c ∈ f.2, c.toNat < 256)
    (ht : List.Forall₂ (fun (f : Txt × Txt) t => ∃ e, encode f.2 = .done e ∧ t = f.1 ++ '=' :: e) fs texts)
    (hq : u.query = some (['&'].intercalate texts)) :
    ∃ d, decodedFields u = .done (some d) ∧ ∀ k, d.lookup k =
      match (fs.filter fun f => f.1 = k).map fun f => some f.2 with
      | [] => none
      | [v] => some (.one v)
      | vs => some (.many vs) := by
  have hw : ∀ w ∈ texts, w ≠ [] ∧ ∀ c ∈ w, decide (c = '&') = false := by
    intro w hw
    obtain ⟨f, hfm, e, he, rfl⟩ : ∃ f ∈ fs, ∃ e, encode f.2 = .done e ∧ w = f.1 ++ '=' :: e := by
      clear hf hq
      induction ht with
      | nil => simp at hw
      | cons hh _ ih =>
        rcases List.mem_cons.1 hw with rfl | hw
        · exact ⟨_, by simp, hh⟩
        · obtain ⟨f, h1, h2⟩ := ih hw
          exact ⟨f, by simp [h1], h2⟩
    obtain ⟨_, h2, _, h4⟩ := hf f hfm
    refine ⟨by simp, fun c hc => ?_⟩
    rcases List.mem_append.1 hc with hc | hc
    · exact decide_eq_false (fun e => h2 (e ▸ hc))
    · rcases List.mem_cons.1 hc with rfl | hc
      · decide
      · obtain ⟨e', he', _, h5⟩ := encode_decode f.2 h4
        rw [he] at he'
        obtain rfl := Out.done.inj he'
        refine decide_eq_false ?_
        rintro rfl
        rcases h5 _ hc with h | h
        · exact absurd h (by decide)
        · exact absurd h (by decide)
  have h := words_join (fun c => decide (c = '&')) '&' (by decide) texts hw
  rw [words_split] at h
  have e : ∀ l : List Txt, l.modifyHead (fun x => [] ++ x) = l := by intro l; cases l <;> simp
  rw [e] at h
  obtain ⟨d, h1, h2⟩ := decodeFields_spec fs [] [] (fun f hm => ⟨(hf f hm).1, (hf f hm).2.2⟩) (fun k => rfl) texts ht
  refine ⟨d, ?_, fun k => ?_⟩
  · unfold decodedFields
    rw [hq]
    simp only
    rw [subStrings_eq, h, h1]
    rfl
  · rw [h2 k, List.nil_append]
    unfold entry valuesOf
    rfl

example : decodedFields ⟨none, none, none, none, 0, none, some "a=1&b=x+y&a=2%263".toList, none⟩ =
    .done (some [("a".toList, .many [some "1".toList, some "2&3".toList]), ("b".toList, .one (some "x y".toList))]) := by decide +kernel

/-- Keys stay encoded, empty values become nil, and a key that comes again after it had no value is an error. -/
theorem fields_fail :
    decodedFields ⟨none, none, none, none, 0, none, some "a%20b=1".toList, none⟩ = .done (some [("a%20b".toList, .one (some "1".toList))]) ∧
    decodedFields ⟨none, none, none, none, 0, none, some "a=".toList, none⟩ = .done (some [("a".toList, .one none)]) ∧
    decodedFields ⟨none, none, none, none, 0, none, some "a&a=1".toList, none⟩ = .error := by decide +kernel

/-! ### C174 -/

/-- The news group of an nntp URL is never answered. -/
theorem news_nil (u : URL) (h : u.scheme = some "nntp".toList) : newsGroup u = none := by
  unfold newsGroup
  rw [h]
  cases u.path <;> simp

/-- A news URL has no slash before the group: its first character is dropped. -/
theorem news_drops (c : Char) (g rest : Txt) (hg : '/' ∉ g) (u : URL) (hs : u.scheme = some "news".toList)
    (hp : u.path = some (c :: g ++ '/' :: rest) ∨ u.path = some (c :: g)) : newsGroup u = some g := by
  have h1 : indexFrom '/' (c :: g ++ '/' :: rest) 2 = g.length + 2 := by
    have := indexFrom_append (c := '/') (a := [c]) (b := g) (d := rest) hg
    simp only [List.singleton_append, List.length_singleton] at this
    rw [List.cons_append, this]
    omega
  have h2 : indexFrom '/' (c :: g) 2 = g.length + 2 := by
    have := indexFrom_absent (c := '/') (a := [c]) (b := g) hg
    simpa using this
  have e1 : copyFrom (c :: g ++ '/' :: rest) 2 (g.length + 2 - 1) = g := by
    have := copyFrom_mid [c] g ('/' :: rest)
    simp only [List.singleton_append, List.length_singleton] at this
    rw [List.cons_append, show g.length + 2 - 1 = 1 + g.length by omega]
    exact this
  have e2 : copyFrom (c :: g) 2 (g.length + 2 - 1) = g := by
    have := copyFrom_mid [c] g []
    simp only [List.singleton_append, List.length_singleton, List.append_nil] at this
    rw [show g.length + 2 - 1 = 1 + g.length by omega]
    exact this
  have hns : ¬ (u.scheme = some "nntp".toList) := by rw [hs]; decide
  unfold newsGroup
  rw [if_neg hns]
  rcases hp with hp | hp
  · rw [hp]
    simp only [hs, decide_true, if_true]
    rw [h1, e1]
  · rw [hp]
    simp only [hs, decide_true, if_true]
    rw [h2, e2]

example : ∃ u, fromString 5 "news:fj.lang".toList = .done u ∧ newsGroup u = some "j.lang".toList := ⟨_, rfl, by decide +kernel⟩

end Verif.Url
