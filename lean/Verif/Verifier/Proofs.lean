import Verif.Verifier.Spec
/-!
# The bytecode verifier: proofs
-/
namespace Verif.Verifier
open Verif.Bytecode

theorem bind_ok {α β : Type} {x : Res α} {f : α → Res β} {b : β} (h : x.bind f = .ok b) : ∃ a, x = .ok a ∧ f a = .ok b := by
  cases x with
  | ok a => exact ⟨a, rfl, h⟩
  | reject => cases h
  | undef => cases h

/-! ## Borders -/

/-- Blocks start at borders, and the height at the start of the method does not change. -/
def BInv (M : Meth) (s : S1) : Prop := (∀ p, (s.bb p).isSome → Boundary M p) ∧ s.bb 0 = some ⟨M.numTemps, false⟩

theorem put_boundary {M : Meth} {s : S1} (h : ∀ p, (s.bb p).isSome → Boundary M p) {p : Nat} (hp : Boundary M p) (b : Blk) :
    ∀ q, ((s.put p b).bb q).isSome → Boundary M q := by
  intro q hq
  simp only [S1.put] at hq
  split at hq
  · next e => exact e ▸ hp
  · exact h q hq

theorem put_zero {s : S1} {p : Nat} {b c : Blk} (h : s.bb 0 = some c) (hp : s.bb p ≠ some c) : (s.put p b).bb 0 = some c := by
  simp only [S1.put]
  rw [if_neg (show ¬ 0 = p from fun e => hp (e ▸ h))]
  exact h

theorem BInv.suspend {M : Meth} {s : S1} (h : BInv M s) {p : Nat} (hp : Boundary M p) (sp : Int) : BInv M (s.suspend p sp) := by
  rw [S1.suspend]
  split
  · next hn => exact ⟨put_boundary h.1 hp _, put_zero h.2 (by rw [hn]; simp)⟩
  · exact h

theorem BInv.reach {M : Meth} {s s' : S1} (h : BInv M s) {p : Nat} (hp : Boundary M p) {sp : Int} (e : s.reach p sp = .ok s') :
    BInv M s' := by
  rw [S1.reach] at e
  split at e
  · next hn => cases e; exact ⟨put_boundary h.1 hp _, put_zero h.2 (by rw [hn]; simp)⟩
  · next b hb =>
    split at e
    · next hs =>
      cases e
      exact ⟨put_boundary h.1 hp _, put_zero h.2 (by rw [hb]; rintro ⟨rfl⟩; simp at hs)⟩
    · split at e
      · cases e
      · cases e; exact h

theorem target_dest {M : Meth} {ip len t : Nat} {i : Ins} (h : target M ip len i = .ok t) : dest ip len i = (t : Int) := by
  rw [target] at h
  simp only at h
  rw [dest]
  by_cases hb : i.op = .jumpBack
  · simp only [hb, true_and, if_true] at h ⊢
    split at h
    · cases h
    · split at h
      · cases h
      · split at h
        · cases h
        · split at h
          · cases h
          · cases h; omega
  · simp only [hb, false_and, if_false] at h ⊢
    split at h
    · cases h
    · split at h
      · cases h
      · split at h
        · cases h
        · cases h; omega

theorem ins1_binv {M : Meth} {ip len : Nat} {is : List Ins} (hf : M.fetch ip = some (is, len)) {cur bal bal' : Int} {s s' : S1} {i : Ins}
    (hi : i ∈ is) (h : BInv M s) (e : ins1 M ip len cur s bal i = .ok (s', bal')) : BInv M s' := by
  rw [ins1] at e
  have uj {ho : i.op = .jump ∨ i.op = .jumpBack}
      (e : ((target M ip len i).bind fun t => ((s.suspend (ip + len) 0).reach t (cur + bal)).bind fun s => .ok (s, bal)) =
        .ok (s', bal')) : BInv M s' := by
    obtain ⟨t, ht, e⟩ := bind_ok e
    obtain ⟨s1, h1, e⟩ := bind_ok e
    cases e
    have hj : isJump i := by rcases ho with ho | ho <;> simp [isJump, ho]
    exact (h.suspend (.after hf hi (.inr hj)) _).reach (.target hf hi hj (target_dest ht)) h1
  have cj {ho : i.op = .popJumpTrue ∨ i.op = .popJumpFalse}
      (e : ((target M ip len i).bind fun t => (s.reach (ip + len) (cur + (bal - 1))).bind fun s =>
        (s.reach t (cur + (bal - 1))).bind fun s => .ok (s, bal - 1)) = .ok (s', bal')) : BInv M s' := by
    obtain ⟨t, ht, e⟩ := bind_ok e
    obtain ⟨s1, h1, e⟩ := bind_ok e
    obtain ⟨s2, h2, e⟩ := bind_ok e
    cases e
    have hj : isJump i := by rcases ho with ho | ho <;> simp [isJump, ho]
    exact (h.reach (.after hf hi (.inr hj)) h1).reach (.target hf hi hj (target_dest ht)) h2
  cases ho : i.op <;> simp only [ho] at e
  case jump => exact uj (ho := .inl ho) e
  case jumpBack => exact uj (ho := .inr ho) e
  case popJumpTrue => exact cj (ho := .inl ho) e
  case popJumpFalse => exact cj (ho := .inr ho) e
  case returnMethodStackTop =>
    cases e
    exact h.suspend (.after hf hi (.inl (by simp [isReturn, ho]))) _
  case returnContextStackTop =>
    cases e
    exact h.suspend (.after hf hi (.inl (by simp [isReturn, ho]))) _
  case invalid => cases e
  all_goals first
    | (cases e; exact h)
    | (obtain ⟨b, -, e⟩ := bind_ok e; cases e; exact h)
    | (split at e
       · cases e
       · obtain ⟨b, -, e⟩ := bind_ok e; cases e; exact h)

theorem byte1_binv {M : Meth} {ip len : Nat} {is : List Ins} (hf : M.fetch ip = some (is, len)) {cur : Int} :
    ∀ (js : List Ins), (∀ i ∈ js, i ∈ is) → ∀ {s s' : S1} {bal bal' : Int}, BInv M s →
      byte1 M ip len cur js s bal = .ok (s', bal') → BInv M s'
  | [], _, _, _, _, _, h, e => by cases e; exact h
  | i :: r, hs, s, s', bal, bal', h, e => by
    rw [byte1] at e
    obtain ⟨⟨s1, b1⟩, h1, e⟩ := bind_ok e
    exact byte1_binv hf r (fun j hj => hs j (List.mem_cons_of_mem _ hj)) (ins1_binv hf (hs i List.mem_cons_self) h h1) e

theorem block1_binv {M : Meth} : ∀ (fuel : Nat) {s s' : S1} {ip : Nat} {cur : Int}, BInv M s → block1 M fuel s ip cur = .ok s' →
    BInv M s'
  | 0, _, _, _, _, _, e => by cases e
  | fuel + 1, s, s', ip, cur, h, e => by
    rw [block1] at e
    split at e
    · cases e
    · next is len hf =>
      obtain ⟨⟨s1, b1⟩, h1, e⟩ := bind_ok e
      have hb := byte1_binv hf is (fun _ h => h) h h1
      split at e
      · cases e
      · split at e
        · cases e; exact hb
        · exact block1_binv fuel hb e

theorem pass1_binv {M : Meth} : ∀ (fuel : Nat) {s s' : S1}, BInv M s → pass1 M fuel s = .ok s' → BInv M s'
  | 0, _, _, _, e => by cases e
  | fuel + 1, s, s', h, e => by
    rw [pass1] at e
    split at e
    · split at e
      · cases e
      · obtain ⟨s1, h1, e⟩ := bind_ok e
        have hb : BInv M s1 := by
          refine block1_binv _ ?_ h1
          exact h
        split at e
        · refine pass1_binv fuel ?_ e
          exact hb
        · exact pass1_binv fuel hb e
    · cases e; exact h

theorem start1_binv (M : Meth) : BInv M (start1 M) := by
  refine ⟨fun p hp => ?_, ?_⟩
  · simp only [start1] at hp
    split at hp
    · next e => exact e ▸ .stop
    · split at hp
      · next e => exact e ▸ .start
      · cases hp
  · simp only [start1]
    split
    · rfl
    · rfl

/-! ## Heights -/

theorem pop_ok {s s' : S2} {n : Nat} (h : s.pop n = .ok s') : n ≤ s.st.length ∧ s'.st.length + n = s.st.length := by
  rw [S2.pop] at h
  split at h
  · cases h
  · cases h
    simp only [List.length_take]
    omega

theorem setTop_ok {s s' : S2} {t : Ty} (h : s.setTop t = .ok s') : 1 ≤ s.st.length ∧ s'.st.length = s.st.length := by
  rw [S2.setTop] at h
  obtain ⟨s1, h1, e⟩ := bind_ok h
  cases e
  have := pop_ok h1
  simp only [S2.push, List.length_append, List.length_singleton]
  omega

theorem at_ok {s : S2} {k : Nat} {t : Ty} (h : s.at k = .ok t) : k ≤ s.st.length := by
  rw [S2.at] at h
  split at h
  · cases h
  · omega

theorem send2_ok {M : Meth} {s s' : S2} {sup n : Nat} (h : send2 M s sup n = .ok s') :
    sup + n + 1 ≤ s.st.length ∧ s'.st.length + (sup + n) = s.st.length := by
  rw [send2] at h
  split at h
  · cases h
  · obtain ⟨s1, h1, h⟩ := bind_ok h
    obtain ⟨t, h2, h⟩ := bind_ok h
    split at h
    · cases h
    · have a := pop_ok h1
      have b := setTop_ok h
      simp only at a
      omega

theorem sendBalance_ok {cur bal b : Int} {n : Nat} (h : sendBalance cur bal n = .ok b) : b = bal - n := by
  rw [sendBalance] at h
  split at h
  · cases h
  · cases h; rfl

theorem checkLit_ok {M : Meth} {s s' : S2} {n : Nat} (h : checkLit M s n = .ok s') : n < M.numLits ∧ s'.st = s.st := by
  rw [checkLit] at h
  split at h
  · cases h
  · cases h; exact ⟨by omega, rfl⟩

theorem checkTemp_ok {s s' : S2} {n : Nat} (h : checkTemp s n = .ok s') : n < s.st.length ∧ s'.st = s.st := by
  rw [checkTemp] at h
  split at h
  · cases h
  · cases h; exact ⟨by omega, rfl⟩

theorem checkRec_ok {M : Meth} {s s' : S2} {n : Nat} (h : checkRec M s n = .ok s') : n < M.numRec ∧ s'.st = s.st := by
  rw [checkRec] at h
  split at h
  · cases h
  · cases h; exact ⟨by omega, rfl⟩

theorem checkVar_ok {M : Meth} {s s' : S2} {n : Nat} (h : checkVar M s n = .ok s') : n < M.numLits ∧ s'.st = s.st := by
  rw [checkVar] at h
  obtain ⟨s1, h1, h⟩ := bind_ok h
  split at h
  · cases h; exact checkLit_ok h1
  · cases h

theorem checkOuter_ok {M : Meth} {n k : Nat} {u : Unit} (h : checkOuter M n k = .ok u) :
    0 < k ∧ ∃ m, M.outer[k - 1]? = some m ∧ n < m := by
  rw [checkOuter] at h
  split at h
  · cases h
  · split at h
    · cases h
    · next m hm =>
      split at h
      · cases h
      · exact ⟨by omega, m, hm, by omega⟩

theorem push_len (s : S2) (t : Ty) : (s.push t).st.length = s.st.length + 1 := by simp [S2.push]

/-- An instruction that both passes let through is in range, and the two passes agree on the height after it. -/
theorem ins_agree {M : Meth} (hnew : ∀ k, M.builtin 32 = some k → k = 1) {bb : Nat → Option Blk} {ip len : Nat} {cur bal bal' : Int}
    {s s' : S1} {t t' : S2} {i : Ins} (hi : i.op = .sendImmediate → i.args.getD 0 0 = 32 → i.args.getD 1 0 = 0)
    (h1 : ins1 M ip len cur s bal i = .ok (s', bal')) (h2 : ins2 M bb ip len t i = .ok t') (hl : (t.st.length : Int) = cur + bal) :
    InRange false M i (cur + bal) ∧
      (isReturn i = false → isJump i = false → after M i (cur + bal) = cur + bal' ∧ (t'.st.length : Int) = cur + bal') := by
  rw [ins1] at h1
  rw [ins2] at h2
  simp only at h2
  cases ho : i.op <;> simp only [ho] at h1 h2 <;> simp only [InRange, takes, after, gives, isReturn, isJump, ho, Option.some.injEq,
    exists_eq_left', Nat.cast_zero, Nat.cast_one, Nat.cast_ofNat, and_true, Bool.false_eq_true, false_implies, reduceCtorEq, or_self, or_false,
    or_true, decide_false, decide_true, Option.getD_some, true_implies, Nat.cast_add]
  case invalid => cases h1
  case send =>
    obtain ⟨b, hb, h1⟩ := bind_ok h1
    cases h1
    have := sendBalance_ok hb
    have := send2_ok h2
    omega
  case pushReceiverVariable =>
    obtain ⟨u, hu, h2⟩ := bind_ok h2
    have a := checkRec_ok hu
    cases h1; cases h2
    rw [push_len, a.2]
    omega
  case pushTemporaryVariable =>
    obtain ⟨u, hu, h2⟩ := bind_ok h2
    have a := checkTemp_ok hu
    cases h1; cases h2
    rw [push_len, a.2]
    omega
  case pushLitConstant =>
    obtain ⟨u, hu, h2⟩ := bind_ok h2
    have a := checkLit_ok hu
    cases h1; cases h2
    rw [push_len, a.2]
    omega
  case pushLitVariable =>
    obtain ⟨u, hu, h2⟩ := bind_ok h2
    have a := checkVar_ok hu
    cases h1; cases h2
    rw [push_len, a.2]
    omega
  case pushSelf =>
    cases h1; cases h2
    rw [push_len]
    simp only
    omega
  case pushInteger =>
    cases h1; cases h2
    rw [push_len]
    simp only
    omega
  case pushSpecial =>
    split at h2
    · cases h2
    · cases h1; cases h2
      rw [push_len]
      simp only
      omega
  case storeReceiverVariable =>
    have a := checkRec_ok h2
    cases h1
    rw [a.2]
    refine ⟨⟨by omega, a.1⟩, by omega⟩
  case storeTemporaryVariable =>
    have a := checkTemp_ok h2
    cases h1
    rw [a.2]
    omega
  case storeLitVariable =>
    have a := checkVar_ok h2
    cases h1
    rw [a.2]
    refine ⟨⟨by omega, a.1⟩, by omega⟩
  case lineNumberBytecode =>
    cases h1; cases h2
    omega
  case popStackTop =>
    have a := pop_ok h2
    cases h1
    simp only at a
    omega
  case dupStackTop =>
    obtain ⟨u, hu, h2⟩ := bind_ok h2
    have a := at_ok hu
    cases h1; cases h2
    rw [push_len]
    omega
  case pushOuterTemp =>
    obtain ⟨u, hu, h2⟩ := bind_ok h2
    have a := checkOuter_ok hu
    cases h1; cases h2
    rw [push_len]
    simp only
    refine ⟨⟨by omega, a⟩, by omega⟩
  case storeOuterTemp =>
    obtain ⟨u, hu, h2⟩ := bind_ok h2
    have a := checkOuter_ok hu
    cases h1; cases h2
    refine ⟨⟨by omega, a⟩, by omega⟩
  case exitInterpreter =>
    split at h2
    · cases h2
    · cases h1; cases h2
      omega
  case makeDirtyBlock =>
    obtain ⟨u, hu, h2⟩ := bind_ok h2
    split at h2
    · cases h2
    · split at h2
      · cases h2
      · split at h2
        · cases h1; cases h2
          omega
        · cases h2
  case popIntoNewStacktop =>
    obtain ⟨b, hb, h1⟩ := bind_ok h1
    cases h1
    have := sendBalance_ok hb
    obtain ⟨u, hu, h2⟩ := bind_ok h2
    have a := at_ok hu
    split at h2
    · cases h2
    · split at h2
      · cases h2
      · split at h2
        · cases h2
        · split at h2
          · cases h2
          · have b := pop_ok h2
            simp only at b
            omega
  case popJumpTrue =>
    obtain ⟨u, hu, h2⟩ := bind_ok h2
    have a := pop_ok hu
    omega
  case popJumpFalse =>
    obtain ⟨u, hu, h2⟩ := bind_ok h2
    have a := pop_ok hu
    omega
  case jump => omega
  case jumpBack => omega
  case returnMethodStackTop => omega
  case returnContextStackTop => omega
  case sendArith =>
    split at h1
    · cases h1
    · next k hk =>
      obtain ⟨b, hb, h1⟩ := bind_ok h1
      cases h1
      have := sendBalance_ok hb
      simp only [hk] at h2 ⊢
      obtain ⟨u, hu, h2⟩ := bind_ok h2
      have a := pop_ok hu
      have a' := setTop_ok h2
      simp only [Option.map_some, Option.some.injEq, exists_eq_left', Option.getD_some, Nat.cast_add, Nat.cast_one]
      omega
  case sendSpecial =>
    split at h1
    · cases h1
    · next k hk =>
      obtain ⟨b, hb, h1⟩ := bind_ok h1
      cases h1
      have := sendBalance_ok hb
      simp only [hk] at h2 ⊢
      obtain ⟨u, hu, h2⟩ := bind_ok h2
      have a := pop_ok hu
      have a' := setTop_ok h2
      simp only [Option.map_some, Option.some.injEq, exists_eq_left', Option.getD_some, Nat.cast_add, Nat.cast_one]
      omega
  case sendImmediate =>
    split at h1
    · cases h1
    · next k hk =>
      obtain ⟨b, hb, h1⟩ := bind_ok h1
      cases h1
      have := sendBalance_ok hb
      simp only [hk] at h2 ⊢
      simp only [Option.map_some, Option.some.injEq, exists_eq_left', Option.getD_some, Nat.cast_add, Nat.cast_one]
      obtain ⟨u, hu, h2⟩ := bind_ok h2
      split at h2
      · next sz _ hsz =>
        split at hu
        · next hc =>
          have e0 := hi ho hc.1
          rw [hc.1] at hk
          have e1 := hnew k hk
          have a := at_ok hu
          obtain ⟨v, hv, h2⟩ := bind_ok h2
          have a1 := pop_ok hv
          have a2 := setTop_ok h2
          simp only at a2
          rw [e0, e1]
          rw [e0, e1] at this
          omega
        · cases hu
      · have a := send2_ok h2
        omega

theorem byte_agree {M : Meth} (hnew : ∀ k, M.builtin 32 = some k → k = 1) {bb : Nat → Option Blk} {ip len : Nat} {cur : Int} :
    ∀ (is : List Ins), (∀ i ∈ is, i.op = .sendImmediate → i.args.getD 0 0 = 32 → i.args.getD 1 0 = 0) →
      ∀ {bal bal' : Int} {s s' : S1} {t t' : S2}, byte1 M ip len cur is s bal = .ok (s', bal') → byte2 M bb ip len is t = .ok t' →
      (t.st.length : Int) = cur + bal →
      ∃ h' e, Exec false M ip len is (cur + bal) h' e ∧ (e = .next → h' = cur + bal' ∧ (t'.st.length : Int) = h')
  | [], _, bal, bal', s, s', t, t', h1, h2, hl => by
    cases h1; cases h2
    exact ⟨_, _, .done _, fun _ => ⟨rfl, hl⟩⟩
  | i :: r, hi, bal, bal', s, s', t, t', h1, h2, hl => by
    rw [byte1] at h1
    rw [byte2] at h2
    obtain ⟨⟨s1, b1⟩, e1, h1⟩ := bind_ok h1
    obtain ⟨t1, e2, h2⟩ := bind_ok h2
    obtain ⟨hr, hh⟩ := ins_agree hnew (hi i List.mem_cons_self) e1 e2 hl
    by_cases hret : isReturn i = true
    · exact ⟨_, _, .ret i r _ hr hret, fun h => by cases h⟩
    · by_cases hj : isJump i = true
      · have hj' := hj
        simp only [isJump, decide_eq_true_eq] at hj
        by_cases hu : i.op = .jump ∨ i.op = .jumpBack
        · exact ⟨_, _, .jump i r _ hr hu, fun h => by cases h⟩
        · exact ⟨_, _, .branch i r _ hr (by tauto), fun h => by cases h⟩
      · simp only [Bool.not_eq_true] at hret hj
        obtain ⟨ha, hlen⟩ := hh hret hj
        obtain ⟨h', e, he, hn⟩ := byte_agree hnew r (fun j hj => hi j (List.mem_cons_of_mem _ hj)) h1 h2 hlen
        exact ⟨h', e, .step i r _ h' e hr hret hj (ha ▸ he), hn⟩

/-- A run is determined. -/
theorem Exec.det {b : Bool} {M : Meth} {ip len : Nat} {is : List Ins} {h h1 h2 : Int} {e1 e2 : Exit} (x : Exec b M ip len is h h1 e1)
    (y : Exec b M ip len is h h2 e2) : h1 = h2 ∧ e1 = e2 := by
  induction x with
  | done => cases y; exact ⟨rfl, rfl⟩
  | ret i r h _ hr =>
    cases y with
    | ret => exact ⟨rfl, rfl⟩
    | jump _ _ _ _ hj => rcases hj with hj | hj <;> simp [isReturn, hj] at hr
    | branch _ _ _ _ hj => rcases hj with hj | hj <;> simp [isReturn, hj] at hr
    | step _ _ _ _ _ _ hr' => rw [hr] at hr'; cases hr'
  | jump i r h _ hj =>
    cases y with
    | ret _ _ _ _ hr => rcases hj with hj | hj <;> simp [isReturn, hj] at hr
    | jump => exact ⟨rfl, rfl⟩
    | branch _ _ _ _ hj' => rcases hj with hj | hj <;> simp [hj] at hj'
    | step _ _ _ _ _ _ _ hj' => rcases hj with hj | hj <;> simp [isJump, hj] at hj'
  | branch i r h _ hj =>
    cases y with
    | ret _ _ _ _ hr => rcases hj with hj | hj <;> simp [isReturn, hj] at hr
    | jump _ _ _ _ hj' => rcases hj with hj | hj <;> simp [hj] at hj'
    | branch => exact ⟨rfl, rfl⟩
    | step _ _ _ _ _ _ _ hj' => rcases hj with hj | hj <;> simp [isJump, hj] at hj'
  | step i r h _ _ _ hr hj _ ih =>
    cases y with
    | ret _ _ _ _ hr' => rw [hr] at hr'; cases hr'
    | jump _ _ _ _ hj' => rcases hj' with hj' | hj' <;> simp [isJump, hj'] at hj
    | branch _ _ _ _ hj' => rcases hj' with hj' | hj' <;> simp [isJump, hj'] at hj
    | step _ _ _ _ _ _ _ _ y => exact ih y

/-- What both passes say from a bytecode of the first block on. -/
def Sound (M : Meth) (bb : Nat → Option Blk) (ip : Nat) (h : Int) : Prop :=
  ∃ f1 s s' f2 t t', BInv M s ∧ block1 M f1 s ip h = .ok s' ∧ block2 M bb f2 t ip = .ok t' ∧ (t.st.length : Int) = h

theorem Sound.byte {M : Meth} (hnew : ∀ k, M.builtin 32 = some k → k = 1) (hsup : NoSuperNew M) {bb : Nat → Option Blk}
    (hbb : ∀ p, (bb p).isSome → Boundary M p) {ip : Nat} {h : Int} (hs : Sound M bb ip h) :
    ∃ is len h' e, M.fetch ip = some (is, len) ∧ Exec false M ip len is h h' e ∧
      (e = .next → h' < M.depth ∧ (¬ Boundary M (ip + len) → Sound M bb (ip + len) h')) := by
  obtain ⟨f1, s, s', f2, t, t', hb, h1, h2, hl⟩ := hs
  cases f1 with
  | zero => cases h1
  | succ f1 =>
    cases f2 with
    | zero => cases h2
    | succ f2 =>
      rw [block1] at h1
      rw [block2] at h2
      cases hf : M.fetch ip with
      | none => rw [hf] at h1; cases h1
      | some p =>
        obtain ⟨is, len⟩ := p
        rw [hf] at h1 h2
        simp only at h1 h2
        obtain ⟨⟨s1, b1⟩, e1, h1⟩ := bind_ok h1
        obtain ⟨t1, e2, h2⟩ := bind_ok h2
        obtain ⟨h', e, he, hn⟩ := byte_agree hnew is (hsup ip is len hf) e1 e2 (by omega)
        rw [add_zero] at he
        refine ⟨is, len, h', e, rfl, he, fun hne => ?_⟩
        obtain ⟨ha, hlen⟩ := hn hne
        have hb1 := byte1_binv hf is (fun _ h => h) hb e1
        split at h1
        · cases h1
        · next hd =>
          refine ⟨by simp only at hd; omega, fun hnb => ?_⟩
          rw [if_neg (fun hc => hnb (hb1.1 _ hc))] at h1
          rw [if_neg (fun hc => hnb (hbb _ hc))] at h2
          exact ⟨f1, s1, s', f2, t1, t', hb1, ha ▸ h1, h2, hlen⟩

theorem verify_sound {M : Meth} {fuel : Nat} (hv : verify M fuel = .ok ()) :
    ∃ bb, (∀ p, (bb p).isSome → Boundary M p) ∧ Sound M bb 0 M.numTemps := by
  rw [verify] at hv
  obtain ⟨s, h1, h2⟩ := bind_ok hv
  have hb := pass1_binv fuel (start1_binv M) h1
  refine ⟨s.bb, hb.1, ?_⟩
  cases fuel with
  | zero => cases h1
  | succ fuel =>
    rw [pass1] at h1
    have h0 : (start1 M).bb 0 = some ⟨M.numTemps, false⟩ := (start1_binv M).2
    have hw : (start1 M).work = [0] := rfl
    rw [hw] at h1
    simp only [h0] at h1
    obtain ⟨s1, h1, -⟩ := bind_ok h1
    rw [pass2] at h2
    rw [hb.2] at h2
    simp only at h2
    split at h2
    · cases h2
    · obtain ⟨t, h2, -⟩ := bind_ok h2
      refine ⟨_, _, _, _, _, _, ?_, h1, h2, ?_⟩
      · exact start1_binv M
      · simp

theorem straight_sound {M : Meth} (hnew : ∀ k, M.builtin 32 = some k → k = 1) (hsup : NoSuperNew M) {bb : Nat → Option Blk}
    (hbb : ∀ p, (bb p).isSome → Boundary M p) (h0 : Sound M bb 0 M.numTemps) {ip : Nat} {h : Int} (hs : Straight M ip h) :
    Sound M bb ip h := by
  induction hs with
  | start => exact h0
  | next _ hf hx hnb ih =>
    obtain ⟨is, len, h', e, hf', hx', hn⟩ := ih.byte hnew hsup hbb
    rw [hf] at hf'
    cases hf'
    obtain ⟨rfl, rfl⟩ := hx.det hx'
    exact (hn rfl).2 hnb

/-! ## Methods without jumps -/

theorem fetchFrom_last : ∀ (l : List (Nat × Nat)) (arg k : Nat) {is : List Ins} {len : Nat}, fetchFrom arg k l = some (is, len) →
    ∃ a op lsb, is = dissect op a lsb ∧ k < len ∧ l[len - k - 1]? = some (op, lsb)
  | [], _, _, _, _, h => by cases h
  | (op, lsb) :: r, arg, k, is, len, h => by
    rw [fetchFrom] at h
    split at h
    · obtain ⟨a, o, l, e, hk, hl⟩ := fetchFrom_last r _ _ h
      refine ⟨a, o, l, e, by omega, ?_⟩
      rw [show len - k - 1 = (len - (k + 1) - 1) + 1 by omega, List.getElem?_cons_succ]
      exact hl
    · rw [Option.some.injEq, Prod.mk.injEq] at h
      refine ⟨arg, op, lsb, h.1.symm, by omega, ?_⟩
      rw [show len - k - 1 = 0 by omega]
      rfl

theorem fetch_last {M : Meth} {ip : Nat} {is : List Ins} {len : Nat} (h : M.fetch ip = some (is, len)) :
    ∃ a op lsb, is = dissect op a lsb ∧ 0 < len ∧ M.code[ip + len - 1]? = some (op, lsb) := by
  obtain ⟨a, op, lsb, e, hl, hc⟩ := fetchFrom_last _ _ _ h
  refine ⟨a, op, lsb, e, hl, ?_⟩
  rw [List.getElem?_drop] at hc
  rw [← hc]
  congr 1
  omega

theorem dissect_ops (op a b lsb lsb' : Nat) : (dissect op a lsb).map Ins.op = (dissect op b lsb').map Ins.op := by
  rw [dissect, dissect, List.map_map, List.map_map]
  rfl

/-- Bytecodes that end at the same place consist of the same operations. -/
theorem fetch_same_end {M : Meth} {ip ip' : Nat} {is is' : List Ins} {len len' : Nat} (h : M.fetch ip = some (is, len))
    (h' : M.fetch ip' = some (is', len')) (he : ip + len = ip' + len') : is.map Ins.op = is'.map Ins.op := by
  obtain ⟨a, op, lsb, e, hl, hc⟩ := fetch_last h
  obtain ⟨a', op', lsb', e', hl', hc'⟩ := fetch_last h'
  rw [he, hc', Option.some.injEq, Prod.mk.injEq] at hc
  rw [e, e', hc.1]
  exact dissect_ops _ _ _ _ _

theorem Exec.next_ops {b : Bool} {M : Meth} {ip len : Nat} {is : List Ins} {h h' : Int} {e : Exit} (x : Exec b M ip len is h h' e)
    (he : e = .next) : ∀ i ∈ is, isReturn i = false ∧ isJump i = false := by
  induction x with
  | done => simp
  | ret => cases he
  | jump => cases he
  | branch => cases he
  | step i r _ _ _ _ hr hj _ ih =>
    intro j hj'
    rcases List.mem_cons.1 hj' with rfl | hj'
    · exact ⟨hr, hj⟩
    · exact ih he j hj'

theorem Exec.exit_jump {b : Bool} {M : Meth} {ip len : Nat} {is : List Ins} {h h' : Int} {e : Exit} (x : Exec b M ip len is h h' e)
    (hn : ∀ i ∈ is, isJump i = false) : e = .next ∨ e = .leave := by
  induction x with
  | done => exact .inl rfl
  | ret => exact .inr rfl
  | jump i _ _ _ hj => have := hn i List.mem_cons_self; rcases hj with hj | hj <;> simp [isJump, hj] at this
  | branch i _ _ _ hj => have := hn i List.mem_cons_self; rcases hj with hj | hj <;> simp [isJump, hj] at this
  | step i r _ _ _ _ _ _ _ ih => exact ih fun j hj => hn j (List.mem_cons_of_mem _ hj)

theorem boundary_next {M : Meth} (hnj : NoJumps M) {ip len : Nat} {is : List Ins} {h h' : Int} (hf : M.fetch ip = some (is, len))
    (hx : Exec false M ip len is h h' .next) (hb : Boundary M (ip + len)) : ip + len = M.size := by
  generalize hp : ip + len = p at hb
  cases hb with
  | start =>
    obtain ⟨_, _, _, _, hl, _⟩ := fetch_last hf
    omega
  | stop => rfl
  | after hf' hi hr =>
    rename_i ip' len' is' i
    have hops := fetch_same_end hf hf' hp
    have hm : i.op ∈ is'.map Ins.op := List.mem_map_of_mem hi
    rw [← hops] at hm
    obtain ⟨j, hj, e⟩ := List.mem_map.1 hm
    obtain ⟨a, b⟩ := hx.next_ops rfl j hj
    simp only [isReturn, isJump, e] at a b hr
    rw [a, b] at hr
    simp at hr
  | target hf' hi hj _ =>
    rw [hnj _ _ _ hf' _ hi] at hj
    cases hj

theorem reach_straight {M : Meth} (hnj : NoJumps M) {ip : Nat} {h : Int} (hr : Reach M ip h) : ip = M.size ∨ Straight M ip h := by
  induction hr with
  | start => exact .inr .start
  | @next ip len is h h' _ hf hx ih =>
    rcases ih with rfl | ih
    · rw [Meth.fetch, Meth.size, List.drop_length] at hf
      cases hf
    · by_cases hb : Boundary M (ip + len)
      · exact .inl (boundary_next hnj hf hx hb)
      · exact .inr (.next ih hf hx hb)
  | goto _ hf hx => rcases hx.exit_jump (hnj _ _ _ hf) with h | h <;> cases h
  | taken _ hf hx => rcases hx.exit_jump (hnj _ _ _ hf) with h | h <;> cases h
  | notTaken _ hf hx => rcases hx.exit_jump (hnj _ _ _ hf) with h | h <;> cases h

end Verif.Verifier
