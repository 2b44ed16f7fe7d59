import Verif.Files.Writes

/-!
# File streams: sequences of messages
-/

namespace Verif.Files

/-! ### Specification -/

/-- What the last messages did: nothing, reading, or writing. -/
inductive Mode
  | fresh | reads | writes
  deriving DecidableEq, Repr

/-- The message may come now.  Before writing after reading, the position must be set, unless all was read; positions
beyond the end are only for writing; and the end can be asked for only if nothing was just written. -/
def Legal (m : Mode) (a : Abs) : Op → Prop
  | .peek | .next | .nextLine | .upTo _ | .nextN _ | .upToEnd | .contents => a.pos ≤ a.content.length
  | .nextPut _ | .nextPutAll _ | .truncate | .flush => m ≠ .reads ∨ a.content.length ≤ a.pos
  | .bufferSize b => (m ≠ .reads ∨ a.content.length ≤ a.pos) ∧ 0 < b
  | .position | .size => True
  | .positionTo p => 0 ≤ p
  | .skip k => 0 ≤ a.pos + k ∧ a.pos + k < a.content.length
  | .atEnd => m ≠ .writes ∧ a.pos ≤ a.content.length
  | .copyFromTo i j => i ≤ j + 1 ∧ (i ≤ j → j < a.content.length)

def Mode.after (m : Mode) (a : Abs) : Op → Mode
  | .peek | .next | .nextLine | .upTo _ | .upToEnd | .contents => .reads
  | .nextN k => if k = 0 ∨ a.content.length ≤ a.pos then m else .reads
  | .nextPut _ | .nextPutAll _ => .writes
  | .positionTo _ | .skip _ | .flush | .bufferSize _ => .fresh
  | .position | .size | .truncate | .atEnd | .copyFromTo _ _ => m

/-- The rest of the file. -/
def Abs.rest (a : Abs) : List Nat := a.content.drop a.pos

/-- What a message answers and what the file is then. -/
def spec (a : Abs) : Op → Ans × Abs
  | .peek => ((match a.rest with | [] => .nil | c :: _ => .byte c), a)
  | .next => match a.rest with | [] => (.nil, a) | c :: _ => (.byte c, ⟨a.content, a.pos + 1⟩)
  | .nextLine =>
    if a.rest = [] then (.nil, a)
    else (.bytes (a.rest.takeWhile fun c => c ≠ 13 ∧ c ≠ 10), ⟨a.content, a.pos + lineEnd a.rest⟩)
  | .upTo c =>
    if a.rest = [] then (.nil, a)
    else (.bytes (a.rest.takeWhile (· ≠ c)),
      ⟨a.content, min a.content.length (a.pos + (a.rest.takeWhile (· ≠ c)).length + 1)⟩)
  | .nextN m =>
    if m ≤ a.rest.length then (.bytes (a.rest.take m), ⟨a.content, a.pos + m⟩) else (.error, ⟨a.content, a.content.length⟩)
  | .upToEnd | .contents => (.bytes a.rest, ⟨a.content, a.content.length⟩)
  | .nextPut c => (.none, ⟨store a.content a.pos [c], a.pos + 1⟩)
  | .nextPutAll l => (.none, ⟨store a.content a.pos l, a.pos + l.length⟩)
  | .position => (.num a.pos, a)
  | .positionTo p => (.none, ⟨a.content, p.toNat⟩)
  | .skip k => (.none, ⟨a.content, (a.pos + k).toNat⟩)
  | .size => (.num a.content.length, a)
  | .truncate => (.none, ⟨cut a.content a.pos, a.pos⟩)
  | .atEnd => (.bool (a.rest = []), a)
  | .flush | .bufferSize _ => (.none, a)
  | .copyFromTo i j => (.bytes ((a.content.drop i).take (j + 1 - i)), a)

def LegalAll : Mode → Abs → List Op → Prop
  | _, _, [] => True
  | m, a, o :: os => Legal m a o ∧ LegalAll (m.after a o) (spec a o).2 os

def specAll (a : Abs) : List Op → List Ans × Abs
  | [] => ([], a)
  | o :: os => ((spec a o).1 :: (specAll (spec a o).2 os).1, (specAll (spec a o).2 os).2)

/-! ### Proof -/

structure Rel (m : Mode) (s : St) (a : Abs) : Prop where
  good : Good s a
  used : m ≠ .reads → Used s
  wr : m ≠ .writes → s.writePtr = none

theorem Empty.rel {s : St} {a : Abs} (h : Empty s a) (m : Mode) : Rel m s a := ⟨h.good, fun _ => h.used, fun _ => h.wr⟩

theorem Rel.ofRead {s : St} {a : Abs} (h : Good s a) (hw : s.writePtr = none) : Rel .reads s a :=
  ⟨h, fun h => absurd rfl h, fun _ => hw⟩

theorem Rel.ofWrite {s : St} {a : Abs} (h : Good s a) (hu : Used s) : Rel .writes s a :=
  ⟨h, fun _ => hu, fun h => absurd rfl h⟩

theorem Rel.free {m : Mode} {s : St} {a : Abs} (h : Rel m s a) (hl : m ≠ .reads ∨ a.content.length ≤ a.pos) : Used s := by
  rcases hl with hl | hl
  · exact h.used hl
  · exact h.good.used_end hl

theorem rest_nil {a : Abs} : a.rest = [] ↔ a.content.length ≤ a.pos := List.drop_eq_nil_iff

theorem rest_head (a : Abs) : a.content[a.pos]? = a.rest.head? := by
  rw [Abs.rest, List.head?_drop]

/-- How much depth and how many rounds a message needs. -/
def need (a : Abs) (o : Op) : Nat := a.content.length + 3 + match o with | .nextN m => m | _ => 0

theorem run_good {m : Mode} {a : Abs} {o : Op} (hl : Legal m a o) {s : St} (h : Rel m s a) {n : Nat}
    (hn : need a o ≤ n) : ∃ s', run n s o = some ((spec a o).1, s') ∧ Rel (m.after a o) s' (spec a o).2 := by
  have hg := h.good
  unfold need at hn
  obtain ⟨n, rfl⟩ : ∃ k, n = k + 1 := ⟨n - 1, by omega⟩
  cases o with
  | peek =>
    obtain ⟨t, e1, e2, e3⟩ := peek_good hg hl n
    refine ⟨t, ?_, .ofRead e2 e3⟩
    show peek _ _ = _
    rw [e1, rest_head, spec]
    cases a.rest <;> rfl
  | next =>
    obtain ⟨t, e1, e2, e3⟩ := next_good hg hl n
    have hr := rest_nil (a := a)
    rw [rest_head] at e1
    refine ⟨t, ?_, ?_⟩
    · show next _ _ = _
      rw [e1, spec]
      cases a.rest <;> rfl
    · apply Rel.ofRead _ e3
      rw [spec]
      cases hc : a.rest with
      | nil =>
        rw [hc] at hr
        rw [if_neg (by have := hr.mp rfl; omega)] at e2
        exact e2
      | cons c r =>
        rw [hc] at hr
        rw [if_pos (by
          have : ¬ a.content.length ≤ a.pos := fun h => by have := hr.mpr h; cases this
          omega)] at e2
        exact e2
  | nextLine =>
    have hle : a.pos ≤ a.content.length := hl
    obtain ⟨t, e1, e2, e3, e4⟩ := prepare_good hg hle n
    have hr := rest_nil (a := a)
    show ∃ s', nextLine _ _ = _ ∧ Rel .reads _ _
    unfold nextLine
    rw [e1, spec]
    simp only [Option.bind_some, decide_eq_true_eq]
    by_cases he : a.content.length ≤ a.pos
    · rw [if_pos he, if_pos (hr.mpr he)]
      exact ⟨t, rfl, .ofRead e2 e3⟩
    · rw [if_neg he, if_neg (fun h => he (hr.mp h))]
      obtain ⟨u, g1, g2, g3⟩ := lineLoop_good (n := n) (n + 1) e2 e3 (e4 (by omega)) hle (by omega) []
      exact ⟨u, g1, .ofRead g2 g3⟩
  | upTo c =>
    have hle : a.pos ≤ a.content.length := hl
    obtain ⟨t, e1, e2, e3, e4⟩ := prepare_good hg hle n
    have hr := rest_nil (a := a)
    show ∃ s', upTo _ _ _ = _ ∧ Rel .reads _ _
    unfold upTo
    rw [e1, spec]
    simp only [Option.bind_some, decide_eq_true_eq]
    by_cases he : a.content.length ≤ a.pos
    · rw [if_pos he, if_pos (hr.mpr he)]
      exact ⟨t, rfl, .ofRead e2 e3⟩
    · rw [if_neg he, if_neg (fun h => he (hr.mp h))]
      obtain ⟨u, g1, g2, g3⟩ := upToLoop_good (c := c) (n := n) (n + 1) e2 e3 (e4 (by omega)) hle (by omega) []
      exact ⟨u, g1, .ofRead g2 g3⟩
  | nextN k =>
    have hle : a.pos ≤ a.content.length := hl
    dsimp only at hn
    obtain ⟨t, e1, e2, e3, e4⟩ := nextLoop_good (n := n) (n + 1) hg hle k (by split <;> omega) []
    have hlen : a.rest.length = a.content.length - a.pos := List.length_drop
    refine ⟨t, ?_, ?_, ?_, ?_⟩
    · show nextLoop _ _ _ _ _ = _
      rw [e1, spec]
      by_cases hk : a.pos + k ≤ a.content.length
      · rw [if_pos hk, if_pos (by omega)]
        rfl
      · rw [if_neg hk, if_neg (by omega)]
    · rw [spec]
      by_cases hk : a.pos + k ≤ a.content.length
      · rw [if_pos (by omega)]
        rwa [Nat.min_eq_right hk] at e2
      · rw [if_neg (by omega)]
        rwa [Nat.min_eq_left (by omega)] at e2
    · intro hm
      rw [Mode.after] at hm
      split at hm
      · rename_i hc
        rcases e3 hc with rfl | ⟨-, hu⟩
        · exact h.used hm
        · exact hu (h.used hm)
      · exact absurd rfl hm
    · intro hm
      rw [Mode.after] at hm
      split at hm
      · exact e4 (Or.inl (h.wr hm))
      · rename_i hc
        exact e4 (Or.inr (by omega))
  | upToEnd =>
    have hle : a.pos ≤ a.content.length := hl
    obtain ⟨t, e1, e2, e3, -⟩ := settle_good hg n
    show ∃ s', upToEnd _ _ = some (.bytes a.rest, s') ∧ Rel .reads s' ⟨a.content, a.content.length⟩
    unfold upToEnd
    rw [e1]
    simp only [Option.bind_some]
    have key : ∀ t, Good t a → t.writePtr = none → (a.pos < a.content.length → t.ptr ≤ t.endPtr) →
        ∃ s', restLoop (n + 1) (n + 1) t [] = some (.bytes a.rest, s') ∧
          Rel .reads s' ⟨a.content, a.content.length⟩ := by
      intro t h1 h2 h3
      obtain ⟨u, g1, g2, g3⟩ := restLoop_good (n := n) (n + 1) h1 h2 h3 hle (by omega) []
      exact ⟨u, g1, .ofRead g2 g3⟩
    have hr := e2.reads e3
    split
    · obtain ⟨u, g1, g2, g3, g4, g5, g6⟩ := fill_used e2 (by omega) n
      have hroom := e2.room
      rw [g1]
      simp only [Option.bind_some]
      exact key u g2 g3 (by intro _; rw [g4, g5]; omega)
    · simp only [Option.bind_some]
      exact key t e2 e3 (by intro _; omega)
  | contents =>
    have hle : a.pos ≤ a.content.length := hl
    obtain ⟨t, e1, e2, e3, -⟩ := settle_good hg n
    show ∃ s', contents _ _ = some (.bytes a.rest, s') ∧ Rel .reads s' ⟨a.content, a.content.length⟩
    unfold contents
    rw [e1]
    simp only [Option.bind_some]
    rw [position_good e2, ← e2.file_eq e3,
      show ((a.content.length : Int) - a.pos).toNat = a.content.length - a.pos by omega]
    obtain ⟨u, g1, g2, g3, g4⟩ := nextLoop_good (n := n) (n + 1) e2 hle (a.content.length - a.pos)
      (by rw [if_pos e3]; omega) []
    rw [if_pos (by omega), List.take_of_length_le (by rw [List.length_drop]; omega), List.nil_append] at g1
    refine ⟨u, g1, .ofRead ?_ (g4 (Or.inl e3))⟩
    rwa [show a.pos + (a.content.length - a.pos) = a.content.length by omega, Nat.min_self] at g2
  | nextPut c =>
    obtain ⟨t, e1, e2, e3⟩ := nextPut_good hg (h.free hl) n c
    refine ⟨t, ?_, .ofWrite e2 e3⟩
    show (nextPut _ _ _).map _ = _
    rw [e1]
    rfl
  | nextPutAll l =>
    obtain ⟨t, e1, e2, e3⟩ := putAll_good hg (h.free hl) n l
    refine ⟨t, ?_, .ofWrite e2 e3⟩
    show (putAll _ _ _).map _ = _
    rw [e1]
    rfl
  | position =>
    refine ⟨s, ?_, h⟩
    show some (Ans.num (position s), s) = _
    rw [position_good hg]
    rfl
  | positionTo p => exact ⟨_, rfl, (positionTo_good hg hl).rel _⟩
  | skip k =>
    obtain ⟨t, e1, e2⟩ := skip_good hg n hl.1 hl.2
    refine ⟨t, ?_, e2.rel _⟩
    show (skipWith _ _ _).map _ = _
    rw [e1]
    rfl
  | size =>
    obtain ⟨t, e1, e2, e3, e4⟩ := settle_good hg n
    refine ⟨t, ?_, e2, fun hm => e4 (h.used hm), fun _ => e3⟩
    show size _ _ = _
    unfold size
    rw [e1, Option.map_some, ← e2.file_eq e3]
    rfl
  | truncate =>
    obtain ⟨t, e1, e2, e3, e4⟩ := truncate_good hg (h.free hl) n
    refine ⟨t, ?_, e2, fun _ => e4, fun _ => e3⟩
    show (truncate _ _).map _ = _
    rw [e1]
    rfl
  | atEnd =>
    refine ⟨s, ?_, h⟩
    show some (Ans.bool (atEnd s), s) = some (Ans.bool (decide (a.rest = [])), s)
    rw [atEnd_good hg (h.wr hl.1) hl.2]
    congr 3
    rw [decide_eq_decide]
    exact rest_nil.symm
  | flush =>
    obtain ⟨t, e1, e2, -⟩ := flush_used hg (h.free hl) n
    refine ⟨t, ?_, e2.rel _⟩
    show (flush _ _).map _ = _
    rw [e1]
    rfl
  | bufferSize b =>
    obtain ⟨t, e1, e2, -⟩ := flush_used hg (h.free hl.1) n
    refine ⟨{ t with buf := List.replicate b 0 }, ?_,
      Empty.rel (s := { t with buf := List.replicate b 0 }) ⟨?_, e2.ptr, e2.endP, e2.wr, e2.file, e2.fd⟩ _⟩
    · show (bufferSize _ _ _).map _ = _
      unfold bufferSize
      rw [e1]
      rfl
    · show 0 < (List.replicate b 0).length
      rw [List.length_replicate]
      exact hl.2
  | copyFromTo i j =>
    obtain ⟨t, e1, e2, e3, e4⟩ := copyFromTo_good hg n hl.1 hl.2
    exact ⟨t, e1, e2, fun hm => e4 (h.used hm), fun hm => e3 (h.wr hm)⟩

theorem runAll_good (ops : List Op) {m : Mode} {a : Abs} (hl : LegalAll m a ops) :
    ∃ N, ∀ s, Rel m s a → ∀ n, N ≤ n → ∃ m' s', runAll n s ops = some ((specAll a ops).1, s') ∧
      Rel m' s' (specAll a ops).2 := by
  induction ops generalizing m a with
  | nil => exact ⟨0, fun s h n _ => ⟨m, s, rfl, h⟩⟩
  | cons o os ih =>
    obtain ⟨N, hN⟩ := ih hl.2
    refine ⟨max N (need a o), fun s h n hn => ?_⟩
    obtain ⟨t, e1, e2⟩ := run_good hl.1 h (n := n) (by omega)
    obtain ⟨m', u, g1, g2⟩ := hN t e2 n (by omega)
    refine ⟨m', u, ?_, g2⟩
    rw [runAll, e1]
    simp only [Option.bind_some]
    rw [g1]
    rfl

theorem open_rel (file b : List Nat) (hb : b ≠ []) : Rel .fresh (St.open file b) ⟨file, 0⟩ :=
  Empty.rel ⟨List.length_pos_iff.mpr hb, rfl, rfl, rfl, rfl, rfl⟩ _

end Verif.Files
