import Verif.Scavenge.Spec

/-! # The survivor space is a queue of objects -/

namespace Verif.Scavenge

/-- The objects `l` lie one after the other from `a` on. -/
def Laid (sz addr : Oop → Nat) : Nat → List Oop → Prop
  | _, [] => True
  | a, o :: l => addr o = a ∧ Laid sz addr (a + sz o) l

def total (sz : Oop → Nat) (l : List Oop) : Nat := (l.map sz).sum

@[simp] theorem total_nil (sz) : total sz [] = 0 := rfl
@[simp] theorem total_cons (sz x l) : total sz (x :: l) = sz x + total sz l := rfl
@[simp] theorem total_append (sz l m) : total sz (l ++ m) = total sz l + total sz m := by
  simp [total]

theorem total_pos {sz : Oop → Nat} {l : List Oop} (h : ∀ o ∈ l, 0 < sz o) (hl : l ≠ []) :
    0 < total sz l := by
  cases l with
  | nil => exact absurd rfl hl
  | cons x l => have := h x (by simp); simp; omega

theorem Laid.append {sz addr : Oop → Nat} {l m : List Oop} {a : Nat} :
    Laid sz addr a (l ++ m) ↔ Laid sz addr a l ∧ Laid sz addr (a + total sz l) m := by
  induction l generalizing a with
  | nil => simp [Laid]
  | cons x l ih => simp [Laid, ih, and_assoc, Nat.add_assoc]

theorem Laid.congr {sz addr addr' : Oop → Nat} {l : List Oop} {a : Nat}
    (h : ∀ o ∈ l, addr' o = addr o) (hl : Laid sz addr a l) : Laid sz addr' a l := by
  induction l generalizing a with
  | nil => trivial
  | cons x l ih =>
    exact ⟨by rw [h x (by simp)]; exact hl.1, ih (fun o ho => h o (by simp [ho])) hl.2⟩

theorem Laid.range {sz addr : Oop → Nat} {l : List Oop} {a : Nat} (hl : Laid sz addr a l)
    {o : Oop} (ho : o ∈ l) : a ≤ addr o ∧ addr o + sz o ≤ a + total sz l := by
  induction l generalizing a with
  | nil => cases ho
  | cons x l ih =>
    rcases List.mem_cons.1 ho with rfl | ho
    · simp [hl.1]
    · have := ih hl.2 ho; simp; omega

theorem Laid.apart {sz addr : Oop → Nat} {l : List Oop} {a : Nat} (hl : Laid sz addr a l)
    {o p : Oop} (ho : o ∈ l) (hp : p ∈ l) (hne : o ≠ p) :
    Apart (addr o) (sz o) (addr p) (sz p) := by
  induction l generalizing a with
  | nil => cases ho
  | cons x l ih =>
    rcases List.mem_cons.1 ho with h1 | h1 <;> rcases List.mem_cons.1 hp with h2 | h2
    · exact absurd (h1.trans h2.symm) hne
    · subst h1; have := hl.2.range h2; have := hl.1; left; omega
    · subst h2; have := hl.2.range h1; have := hl.1; right; omega
    · exact ih hl.2 h1 h2

/-- The ring `r` of `cap` words holds the objects `l`, oldest first. -/
inductive Holds (sz addr : Oop → Nat) (cap : Nat) (r : Ring) : List Oop → Prop
  | whole {l} : r.top = r.alloc → r.tenure + total sz l = r.alloc → r.alloc ≤ cap →
      (l = [] → r.alloc = 0) → Laid sz addr r.tenure l → Holds sz addr cap r l
  | wrapped {u v} : u ≠ [] → r.tenure + total sz u = r.top → r.alloc = total sz v →
      r.alloc ≤ r.tenure → r.top ≤ cap → Laid sz addr r.tenure u → Laid sz addr 0 v →
      Holds sz addr cap r (u ++ v)

variable {sz addr : Oop → Nat} {cap : Nat} {r : Ring} {l : List Oop}

theorem Holds.nonempty (h : Holds sz addr cap r l) (hs : r.split) : l ≠ [] := by
  cases h with
  | whole h1 => exact absurd h1 hs
  | wrapped hu => simp [hu]

theorem Holds.get {x : Oop} (hp : ∀ o ∈ x :: l, 0 < sz o) (h : Holds sz addr cap r (x :: l))
    (hs : r.split) : Holds sz addr cap (r.get (sz x)) l := by
  generalize hm : x :: l = m at h
  cases h with
  | whole h1 => exact absurd h1 hs
  | @wrapped u v hu h1 h2 h3 h4 h5 h6 =>
    cases u with
    | nil => exact absurd rfl hu
    | cons y u =>
      simp only [List.cons_append, List.cons.injEq] at hm
      obtain ⟨rfl, rfl⟩ := hm
      simp only [total_cons] at h1
      by_cases hu' : u = []
      · subst hu'
        have e : r.tenure + sz x = r.top := by simpa using h1
        rw [Ring.get, if_pos e]
        refine .whole rfl (by simp [h2]) (by simp; omega) ?_ (by simpa using h6)
        rintro h; simp at h; subst h; simpa using h2
      · have pu := total_pos (sz := sz) (l := u) (fun o ho => hp o (by simp [ho])) hu'
        rw [Ring.get, if_neg (by omega)]
        exact .wrapped hu' (by simp; omega) (by simpa using h2) (by simp; omega) (by simpa using h4)
          (by simpa using h5.2) h6

theorem Holds.wrap {n : Nat} (hp : ∀ o ∈ l, 0 < sz o) (hn : n ≤ cap)
    (h : Holds sz addr cap r l)
    (hs : ¬ (r.split ∧ r.alloc + n > r.tenure)) (hc : r.alloc + n > cap) :
    Holds sz addr cap r.wrap l ∧ r.wrap.alloc = 0 ∧ ¬ r.split := by
  cases h with
  | whole h1 h2 h3 h4 h5 =>
    have hl : l ≠ [] := by intro e; have := h4 e; omega
    refine ⟨?_, rfl, fun h => h h1⟩
    have : Holds sz addr cap r.wrap (l ++ []) :=
      .wrapped hl (by simp [Ring.wrap, h2]) (by simp [Ring.wrap]) (by simp [Ring.wrap])
        (by simpa [Ring.wrap] using h3) (by simpa [Ring.wrap] using h5) trivial
    simpa using this
  | @wrapped u v hu h1 h2 h3 h4 h5 h6 =>
    exfalso
    have pu := total_pos (sz := sz) (l := u) (fun o ho => hp o (by simp [ho])) hu
    have hsp : r.split := by unfold Ring.split; omega
    have : ¬ r.alloc + n > r.tenure := fun h => hs ⟨hsp, h⟩
    omega

theorem Holds.bump {x : Oop} (hp : ∀ o ∈ l, 0 < sz o) (hx : x ∉ l) (h0 : 0 < sz x)
    (h : Holds sz addr cap r l)
    (hs : ¬ (r.split ∧ r.alloc + sz x > r.tenure)) (hc : ¬ r.alloc + sz x > cap) :
    Holds sz (fun o => if o = x then r.alloc else addr o) cap (r.bump (sz x)) (l ++ [x]) := by
  have hne : ∀ o ∈ l, (if o = x then r.alloc else addr o) = addr o := by
    intro o ho; rw [if_neg]; rintro rfl; exact hx ho
  cases h with
  | whole h1 h2 h3 h4 h5 =>
    have hsp : ¬ r.split := fun h => h h1
    refine .whole (by simp [Ring.bump, hsp]) (by simp [Ring.bump]; omega) (by simp [Ring.bump]; omega)
      (by simp) ?_
    rw [Laid.append]
    refine ⟨h5.congr hne, ?_, trivial⟩
    simp [Ring.bump, h2]
  | @wrapped u v hu h1 h2 h3 h4 h5 h6 =>
    have pu := total_pos (sz := sz) (l := u) (fun o ho => hp o (by simp [ho])) hu
    have hsp : r.split := by unfold Ring.split; omega
    have : ¬ r.alloc + sz x > r.tenure := fun h => hs ⟨hsp, h⟩
    rw [List.append_assoc]
    refine .wrapped hu (by simp [Ring.bump, hsp, h1]) (by simp [Ring.bump, h2])
      (by simp [Ring.bump]; omega) (by simp [Ring.bump, hsp]; omega) ?_ ?_
    · exact (h5.congr fun o ho => hne o (by simp [ho]))
    · rw [Laid.append]
      refine ⟨h6.congr fun o ho => hne o (by simp [ho]), ?_, trivial⟩
      simp [h2]

theorem Holds.inside (h : Holds sz addr cap r l) {o : Oop} (ho : o ∈ l) :
    addr o + sz o ≤ cap := by
  cases h with
  | whole h1 h2 h3 h4 h5 => have := h5.range ho; omega
  | @wrapped u v hu h1 h2 h3 h4 h5 h6 =>
    rcases List.mem_append.1 ho with ho | ho
    · have := h5.range ho; omega
    · have := h6.range ho; omega

theorem Holds.apart (h : Holds sz addr cap r l) {o p : Oop} (ho : o ∈ l) (hp : p ∈ l)
    (hne : o ≠ p) : Apart (addr o) (sz o) (addr p) (sz p) := by
  cases h with
  | whole h1 h2 h3 h4 h5 => exact h5.apart ho hp hne
  | @wrapped u v hu h1 h2 h3 h4 h5 h6 =>
    rcases List.mem_append.1 ho with ho | ho <;> rcases List.mem_append.1 hp with hp | hp
    · exact h5.apart ho hp hne
    · have := h5.range ho; have := h6.range hp; right; omega
    · have := h6.range ho; have := h5.range hp; left; omega
    · exact h6.apart ho hp hne

end Verif.Scavenge
