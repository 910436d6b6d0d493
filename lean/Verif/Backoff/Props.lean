import Verif.Backoff.Model
/-!
C250: exponential backoff.
-/
namespace Sparta.Backoff

/-- up to the last power of the multiplier that fits into 32 bits: the next encounter of interest is the least power not yet reached -/
theorem after_spec {m : Nat} (hm : 2 ≤ m) {j : Nat} (hj : m ^ j < 2 ^ 32) : ∀ n, n < m ^ j →
    (after m n).count = n ∧ ∃ i, (after m n).next = m ^ i ∧ n < m ^ i ∧ ∀ k, n < m ^ k → i ≤ k
  | 0, _ => ⟨rfl, 0, rfl, by simp, fun k _ => Nat.zero_le k⟩
  | n + 1, h => by
    obtain ⟨h1, i, h2, h3, h4⟩ := after_spec hm hj n (by omega)
    have hc : ((after m n).count + 1) % 2 ^ 32 = n + 1 := by rw [h1]; exact Nat.mod_eq_of_lt (by omega)
    have e : after m (n + 1) = ((after m n).step m).1 := rfl
    rw [e]
    unfold Bk.step
    dsimp only
    rw [hc, h2]
    by_cases g : n + 1 ≥ m ^ i
    · rw [if_pos g]
      have ei : n + 1 = m ^ i := by omega
      have hij : i < j := by
        rw [ei] at h
        exact (Nat.pow_lt_pow_iff_right (by omega)).1 h
      have hle : m ^ (i + 1) ≤ m ^ j := Nat.pow_le_pow_right (by omega) hij
      refine ⟨rfl, i + 1, ?_, ?_, ?_⟩
      · show m ^ i * m % 2 ^ 32 = _
        rw [← Nat.pow_succ]
        exact Nat.mod_eq_of_lt (Nat.lt_of_le_of_lt hle hj)
      · rw [ei]
        exact (Nat.pow_lt_pow_iff_right (by omega)).2 (by omega)
      · intro k hk
        rw [ei] at hk
        exact (Nat.pow_lt_pow_iff_right (by omega)).1 hk
    · rw [if_neg g]
      exact ⟨rfl, i, rfl, by omega, fun k hk => h4 k (by omega)⟩

/-- **C250** (for multipliers of at least 2, up to the last power of the multiplier that fits into 32 bits; what is missing is shown false below)
The action is performed at the encounters whose numbers are powers of the multiplier, and at no others; it sees the number of the encounter. -/
theorem C250_powers_partial {m : Nat} (hm : 2 ≤ m) (k : Nat) (hk : 1 ≤ k) (j : Nat) (hj : m ^ j < 2 ^ 32) (hkj : k ≤ m ^ j) :
    ((∃ i, k = m ^ i) → action m k = some k) ∧ ((¬ ∃ i, k = m ^ i) → action m k = none) := by
  obtain ⟨n, rfl⟩ : ∃ n, k = n + 1 := ⟨k - 1, by omega⟩
  obtain ⟨h1, i, h2, h3, h4⟩ := after_spec hm hj n (by omega)
  have hc : ((after m n).count + 1) % 2 ^ 32 = n + 1 := by rw [h1]; exact Nat.mod_eq_of_lt (by omega)
  unfold action Bk.step
  rw [Nat.add_sub_cancel]
  dsimp only
  rw [hc, h2]
  constructor
  · rintro ⟨a, ha⟩
    have : m ^ i ≤ m ^ a := Nat.pow_le_pow_right (by omega) (h4 a (by omega))
    rw [if_pos (by omega)]
  · intro hno
    rw [if_neg]
    intro g
    exact hno ⟨i, by omega⟩

example : (List.range 20).filterMap (fun k => action 3 (k + 1)) = [1, 3, 9] := by decide +kernel

/-- as long as the next encounter of interest is not reached nothing happens -/
theorem after_quiet (m : Nat) {k x : Nat} (hk : after m k = ⟨k, x⟩) (hx : x < 2 ^ 32) : ∀ d, k + d < x → after m (k + d) = ⟨k + d, x⟩
  | 0, _ => hk
  | d + 1, h => by
    have ih := after_quiet m hk hx d (by omega)
    have e : after m (k + (d + 1)) = ((after m (k + d)).step m).1 := rfl
    rw [e, ih]
    unfold Bk.step
    dsimp only
    rw [Nat.mod_eq_of_lt (by omega), if_neg (by omega)]
    rfl

/-- just before a power of the multiplier -/
theorem before_power {m : Nat} (hm : 2 ≤ m) {j : Nat} (hj : m ^ j < 2 ^ 32) : after m (m ^ j - 1) = ⟨m ^ j - 1, m ^ j⟩ := by
  have hp : 0 < m ^ j := Nat.pow_pos (by omega)
  obtain ⟨h1, i, h2, h3, h4⟩ := after_spec hm hj (m ^ j - 1) (by omega)
  have hi : i ≤ j := h4 j (by omega)
  have hle : m ^ i ≤ m ^ j := Nat.pow_le_pow_right (by omega) hi
  have e : m ^ i = m ^ j := by omega
  cases h : after m (m ^ j - 1) with
  | mk c x =>
    rw [h] at h1 h2
    dsimp only at h1 h2
    rw [h1, h2, e]

/-- at a power of the multiplier -/
theorem at_power {m : Nat} (hm : 2 ≤ m) {j : Nat} (hj : m ^ j < 2 ^ 32) : after m (m ^ j) = ⟨m ^ j, m ^ j * m % 2 ^ 32⟩ := by
  have hp : 0 < m ^ j := Nat.pow_pos (by omega)
  have e : after m (m ^ j) = ((after m (m ^ j - 1)).step m).1 := by
    show after m (m ^ j) = after m (m ^ j - 1 + 1)
    rw [Nat.sub_add_cancel hp]
  rw [e, before_power hm hj]
  unfold Bk.step
  dsimp only
  rw [Nat.sub_add_cancel hp, Nat.mod_eq_of_lt hj, if_pos (Nat.le_refl _)]

/-- **C250** With multiplier 2 the backoff ends with encounter 2^31: from there on the action is performed at every encounter. -/
theorem C250_two_violated (k : Nat) (hk : 2 ^ 31 ≤ k) : ∃ c, action 2 k = some c := by
  have h0 : ∀ d, (after 2 (2 ^ 31 + d)).next = 0 := by
    intro d
    induction d with
    | zero => rw [Nat.add_zero, at_power (m := 2) (j := 31) (by decide) (by decide)]
    | succ d ih =>
      have e : after 2 (2 ^ 31 + (d + 1)) = ((after 2 (2 ^ 31 + d)).step 2).1 := rfl
      rw [e]
      unfold Bk.step
      dsimp only
      rw [ih, if_pos (Nat.zero_le _)]
  unfold action
  by_cases e : k = 2 ^ 31
  · rw [e, before_power (m := 2) (j := 31) (by decide) (by decide)]
    exact ⟨2 ^ 31, by decide⟩
  · obtain ⟨d, hd⟩ : ∃ d, k - 1 = 2 ^ 31 + d := ⟨k - 1 - 2 ^ 31, by omega⟩
    rw [hd]
    unfold Bk.step
    dsimp only
    rw [h0, if_pos (Nat.zero_le _)]
    exact ⟨_, rfl⟩

theorem step_of {m n : Nat} {b : Bk} (h : after m n = b) : action m (n + 1) = (b.step m).2 ∧ after m (n + 1) = (b.step m).1 := by
  subst h
  exact ⟨rfl, rfl⟩

/-- **C250** With multiplier 10 the action is performed at encounter 1410065408, which is 10^10 modulo 2^32 and no power of 10, and again at the next one. -/
theorem C250_ten_violated : action 10 1410065408 = some 1410065408 ∧ action 10 1410065409 = some 1410065409 ∧ ¬ ∃ i, 1410065409 = 10 ^ i := by
  have h1 : after 10 (10 ^ 9) = ⟨10 ^ 9, 1410065408⟩ := by
    rw [at_power (m := 10) (j := 9) (by decide) (by decide)]
  have h2 := after_quiet 10 h1 (by decide) 410065407 (by decide)
  rw [show (10 ^ 9 + 410065407 : Nat) = 1410065407 by decide] at h2
  obtain ⟨a1, a2⟩ := step_of h2
  rw [show (1410065407 + 1 : Nat) = 1410065408 by decide] at a1 a2
  rw [show Bk.step 10 ⟨1410065407, 1410065408⟩ = (⟨1410065408, 1215752192⟩, some 1410065408) by decide] at a1 a2
  obtain ⟨b1, _⟩ := step_of a2
  rw [show (1410065408 + 1 : Nat) = 1410065409 by decide] at b1
  refine ⟨a1, b1.trans (by decide), ?_⟩
  · rintro ⟨i, h⟩
    cases i with
    | zero => cases h
    | succ i => rw [Nat.pow_succ] at h; omega

/-- **C250** With multiplier 1 the action is performed at every encounter except those whose number is a multiple of 2^32. -/
theorem C250_one (k : Nat) (hk : 1 ≤ k) : (action 1 k).isSome = decide (k % 2 ^ 32 ≠ 0) := by
  have h : ∀ n, after 1 n = ⟨n % 2 ^ 32, 1⟩ := by
    intro n
    induction n with
    | zero => rfl
    | succ n ih =>
      have e : after 1 (n + 1) = ((after 1 n).step 1).1 := rfl
      rw [e, ih]
      unfold Bk.step
      dsimp only
      rw [Nat.mod_add_mod]
      split <;> rfl
  unfold action
  rw [h]
  unfold Bk.step
  dsimp only
  rw [Nat.mod_add_mod, Nat.sub_add_cancel hk]
  by_cases e : k % 2 ^ 32 = 0
  · rw [if_neg (by omega), decide_eq_false (by omega)]
    rfl
  · rw [if_pos (by omega), decide_eq_true e]
    rfl

example : (action 1 7).isSome = true := by decide

end Sparta.Backoff
