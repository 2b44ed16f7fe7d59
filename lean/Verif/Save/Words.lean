import Verif.Save.Model

/-! # Words and bytes -/

namespace Verif.Save

theorem le_length : ∀ n w, (le n w).length = n
  | 0, _ => rfl
  | n + 1, w => by simp [le, le_length n]

theorem ofLe_le : ∀ n w, w < 256 ^ n → ofLe (le n w) = w
  | 0, w, h => by simp at h; simp [le, ofLe, h]
  | n + 1, w, h => by
    have : w / 256 < 256 ^ n := Nat.div_lt_of_lt_mul (by rw [Nat.pow_succ] at h; omega)
    simp only [le, ofLe, ofLe_le n _ this]
    omega

theorem toBytes_length (b w) : (toBytes b w).length = 8 := by
  unfold toBytes; split <;> simp [le_length]

theorem ofBytes_toBytes (b : Bool) {w : Nat} (h : w < 2 ^ 64) : ofBytes b (toBytes b w) = w := by
  have : w < 256 ^ 8 := by simpa using h
  cases b <;> simp [ofBytes, toBytes, ofLe_le 8 w this]

/-- `BYTE_INVERT` is what a word becomes on a machine of the other byte order. -/
theorem invert_spec (b : Bool) (w : Nat) : ofBytes b (toBytes (!b) w) = invert w := by
  cases b <;> simp only [ofBytes, toBytes, le, invert, List.reverse_cons, List.reverse_nil, List.nil_append,
    List.cons_append, ofLe, Bool.not_false, Bool.not_true, if_true, Bool.false_eq_true, if_false,
    Nat.reducePow, Nat.div_div_eq_div_mul, Nat.reduceMul] <;> omega

theorem invert_lt (w : Nat) : invert w < 2 ^ 64 := by
  unfold invert
  simp only [Nat.reducePow]
  omega

theorem le_ofLe : ∀ (bs : List Nat), (∀ b ∈ bs, b < 256) → le bs.length (ofLe bs) = bs
  | [], _ => rfl
  | b :: bs, h => by
    have hb := h b List.mem_cons_self
    simp only [List.length_cons, le, ofLe]
    rw [show (b + 256 * ofLe bs) / 256 = ofLe bs by omega, show (b + 256 * ofLe bs) % 256 = b by omega,
      le_ofLe bs fun x hx => h x (List.mem_cons_of_mem _ hx)]

theorem le_bytes : ∀ n w, ∀ b ∈ le n w, b < 256
  | 0, _, b, h => by simp [le] at h
  | n + 1, w, b, h => by
    simp only [le, List.mem_cons] at h
    rcases h with rfl | h
    · omega
    · exact le_bytes n _ b h

theorem le_invert (w : Nat) : le 8 (invert w) = (le 8 w).reverse := by
  have e := invert_spec false w
  simp only [ofBytes, toBytes, Bool.not_false, if_true, Bool.false_eq_true, if_false] at e
  rw [← e]
  have := le_ofLe (le 8 w).reverse (by intro b hb; exact le_bytes 8 w b (List.mem_reverse.1 hb))
  rwa [List.length_reverse, le_length] at this

theorem toBytes_invert (b : Bool) (w : Nat) : toBytes b (invert w) = toBytes (!b) w := by
  cases b <;> simp [toBytes, le_invert]

theorem invert_invert {w : Nat} (h : w < 2 ^ 64) : invert (invert w) = w := by
  rw [← invert_spec false, Bool.not_false, toBytes_invert, Bool.not_true, ofBytes_toBytes false h]

/-- What the loader sees in a word of the saver. -/
def conv (b b' : Bool) (w : Nat) : Nat := if b = b' then w else invert w

theorem ofBytes_conv (b b' : Bool) {w : Nat} (h : w < 2 ^ 64) : ofBytes b' (toBytes b w) = conv b b' w := by
  unfold conv
  by_cases e : b = b'
  · subst e; simp [ofBytes_toBytes b h]
  · have : b = !b' := by cases b <;> cases b' <;> simp_all
    subst this
    rw [if_neg e, invert_spec]

theorem readWords_dump (b b' : Bool) : ∀ (ws : List Nat) (r : List Nat), (∀ w ∈ ws, w < 2 ^ 64) →
    readWords b' ws.length (dump b ws ++ r) = some (ws.map (conv b b'), r)
  | [], r, _ => by simp [readWords, dump]
  | w :: ws, r, h => by
    have h1 : (dump b (w :: ws) ++ r) = toBytes b w ++ (dump b ws ++ r) := by simp [dump]
    rw [h1]
    simp only [List.length_cons, readWords]
    have e1 : (toBytes b w ++ (dump b ws ++ r)).take 8 = toBytes b w := by
      rw [List.take_append_of_le_length (by simp [toBytes_length]), List.take_of_length_le (by simp [toBytes_length])]
    have e2 : (toBytes b w ++ (dump b ws ++ r)).drop 8 = dump b ws ++ r := by
      rw [List.drop_append_of_le_length (by simp [toBytes_length]), List.drop_of_length_le (by simp [toBytes_length])]
      rfl
    have e3 : ¬ (toBytes b w ++ (dump b ws ++ r)).length < 8 := by simp [toBytes_length]
    rw [if_neg e3, e1, e2, readWords_dump b b' ws r fun w hw => h w (List.mem_cons_of_mem _ hw)]
    simp [ofBytes_conv b b' (h w List.mem_cons_self)]

theorem map_invert_invert : ∀ ws : List Nat, (∀ w ∈ ws, w < 2 ^ 64) → (ws.map invert).map invert = ws
  | [], _ => rfl
  | w :: ws, h => by
    rw [List.map_cons, List.map_cons, invert_invert (h w List.mem_cons_self),
      map_invert_invert ws fun w hw => h w (List.mem_cons_of_mem _ hw)]

theorem map_conv {b b' : Bool} (ws : List Nat) :
    ws.map (conv b b') = if b = b' then ws else ws.map invert := by
  induction ws with
  | nil => simp
  | cons w ws ih =>
    rw [List.map_cons, ih]
    unfold conv
    split <;> simp

theorem swapIf_conv {b b' : Bool} {ws : List Nat} (h : ∀ w ∈ ws, w < 2 ^ 64) :
    swapIf (decide (b ≠ b')) (ws.map (conv b b')) = ws := by
  rw [map_conv]
  unfold swapIf
  by_cases e : b = b'
  · simp [e]
  · rw [if_pos (by simpa using e), if_neg e]
    exact map_invert_invert ws h

end Verif.Save
