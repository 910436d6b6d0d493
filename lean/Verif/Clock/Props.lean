import Verif.Clock.Lemmas
/-!
Properties C87–C89 of clocks: the periods given by the clock manager, the clock-crossing delays, and the conversions between
cycles and ticks.
-/
namespace Sparta.Clock
open Sparta.MathUtils Sparta.Rational

/-- C87: as long as no product of the declared ratios reaches 2^32 (`Fits`, with `L` a common multiple of the denominators of the clocks' ratios to the
root), normalizing succeeds; every clock keeps its place and its declared ratio, its period is positive and stands in exactly the declared ratio to its
parent's (`period * p = parent's period * c`); the root's period is the returned factor; and it is the smallest possible: in every other assignment of
periods respecting the ratios the root's period is a multiple of it. -/
theorem C87_normalize_partial (f : Forest Ratio) (L : Nat) (hL : 0 < L) (hL2 : L < 2 ^ 32) (hf : Fits L 1 1 f) :
    ∃ norm pf, normalize f = some (norm, norm, pf) ∧ 0 < norm.toNat ∧ Respects norm.toNat (nats pf) ∧ pf.erase = f ∧
      ∀ root (pf' : Forest (Ratio × Nat)), pf'.erase = f → Respects root pf' → norm.toNat ∣ root := by
  have h1 : (1#32).toNat = 1 := rfl
  have e0 : lcm32 1#32 1#32 = some 1#32 := by decide +kernel
  obtain ⟨norm, f', e1, c1, c2, c3, c4, c5, c6, c7⟩ := calcNorm_ok hL hL2 f ⟨1#32, 1#32⟩ 1#32 (by decide) (by decide) (by rw [h1]; exact Nat.one_dvd _) hf
  have hle : norm.toNat ≤ L := Nat.le_of_dvd hL c2
  obtain ⟨p, ep, hp⟩ := setPeriod_ok hL (norm := norm) (rr := ⟨1#32, 1#32⟩) (by decide) c2 (by show 1 ∣ _; exact Nat.one_dvd _) (by show 1 * L < _; omega)
  have hpn : p = norm := by
    apply BitVec.eq_of_toNat_eq
    have : p.toNat * 1 = 1 * norm.toNat := hp
    omega
  subst hpn
  obtain ⟨pf, es, hs, he⟩ := setPeriods_ok hL c2 c3 f' ⟨1#32, 1#32⟩ p.toNat (by decide) (by decide) hp c4 c5
  refine ⟨p, pf, ?_, c3, hs, he.trans c6, ?_⟩
  · unfold normalize
    rw [e0, Option.bind_some, e1, Option.bind_some]
    dsimp only
    rw [ep, Option.bind_some, es, Option.map_some]
  · intro root pf' he' hR
    have hA := respects_allD (root := root) f' pf' ⟨1#32, 1#32⟩ root (by decide) c5 hR (he'.trans c6.symm) rfl
    exact c7 root (by rw [h1]; exact Nat.one_dvd _) hA

/-- two children at 2/3 and 5/7 of the root's period, one grandchild at 3/2 of the first child's -/
example : Fits 21 1 1 (.cons ⟨3#32, 2#32⟩ (.cons ⟨2#32, 3#32⟩ .nil .nil) (.cons ⟨7#32, 5#32⟩ .nil .nil)) := by
  refine ⟨by decide, by decide, by decide, by decide, by decide, by decide, ⟨by decide, by decide, by decide, by decide, by decide, by decide, trivial, trivial⟩,
    ⟨by decide, by decide, by decide, by decide, by decide, by decide, trivial, trivial⟩⟩

/-- their periods: 21 (root), 14, 21, 15 -/
example : ∃ pf, normalize (.cons ⟨3#32, 2#32⟩ (.cons ⟨2#32, 3#32⟩ .nil .nil) (.cons ⟨7#32, 5#32⟩ .nil .nil)) = some (21#32, 21#32, pf) ∧
    nats pf = .cons (⟨3#32, 2#32⟩, 14) (.cons (⟨2#32, 3#32⟩, 21) .nil .nil) (.cons (⟨7#32, 5#32⟩, 15) .nil .nil) := by
  refine ⟨.cons (⟨3#32, 2#32⟩, 14#32) (.cons (⟨2#32, 3#32⟩, 21#32) .nil .nil) (.cons (⟨7#32, 5#32⟩, 15#32) .nil .nil), ?_, rfl⟩
  decide +kernel

/-- C87 is violated beyond 32 bits: a single child declared with p = 65536, c = 65537 gets period 1 while the root's is 65536. -/
theorem C87_normalize_violated : ∃ f pf, normalize f = some (65536#32, 65536#32, pf) ∧ pf.erase = f ∧ ¬ Respects 65536 (nats pf) := by
  refine ⟨.cons ⟨65536#32, 65537#32⟩ .nil .nil, .cons (⟨65536#32, 65537#32⟩, 1#32) .nil .nil, by decide +kernel, rfl, ?_⟩
  intro h
  exact absurd h.2.1 (by decide)

/-- some clock of the forest is declared with a zero in its ratio -/
def HasZero : Forest Ratio → Prop
  | .nil => False
  | .cons r kids sibs => r.p.toNat = 0 ∨ r.c.toNat = 0 ∨ HasZero kids ∨ HasZero sibs

theorem rootRatio_zero {prr : Rat 32} {r : Ratio} (h : r.p.toNat = 0 ∨ r.c.toNat = 0) : rootRatio prr r = none := by
  unfold rootRatio
  by_cases hc : r.c.toNat = 0
  · have : r.c = 0#32 := BitVec.eq_of_toNat_eq hc
    rw [this]; rfl
  · obtain ⟨q, eq, hq⟩ := C33_make Inst.u32 r.p r.c hc
    rw [eq, Option.bind_some]
    have hn : q.n.toNat = 0 := by
      have h1 := hq.2.1
      rw [h.resolve_right hc, Nat.zero_mul] at h1
      exact (Nat.mul_eq_zero.1 h1).resolve_right hc
    rw [(C33_inv Inst.u32 q).2 hn]; rfl

theorem calcNorm_zero : ∀ (f : Forest Ratio) (prr : Rat 32) (pn : BitVec 32), HasZero f → calcNorm prr pn f = none := by
  intro f
  induction f with
  | nil => intro _ _ h; exact h.elim
  | cons r kids sibs ihk ihs =>
    intro prr pn h
    unfold calcNorm
    cases hr : rootRatio prr r with
    | none => rfl
    | some rr =>
      rw [Option.bind_some]
      cases hl : lcm32 pn rr.d with
      | none => rfl
      | some pn1 =>
        rw [Option.bind_some]
        rcases h with h | h | h | h
        · rw [rootRatio_zero (.inl h)] at hr; cases hr
        · rw [rootRatio_zero (.inr h)] at hr; cases hr
        · rw [ihk _ _ h]; rfl
        · cases calcNorm rr pn1 kids with
          | none => rfl
          | some x =>
            rw [Option.bind_some]
            dsimp only
            cases lcm32 pn x.1 with
            | none => rfl
            | some pn3 => rw [Option.bind_some, ihs _ _ h]; rfl

/-- C87: a ratio with a zero is rejected. -/
theorem C87_zero_rejected (f : Forest Ratio) (h : HasZero f) : normalize f = none := by
  have e0 : lcm32 1#32 1#32 = some 1#32 := by decide +kernel
  unfold normalize
  rw [e0, Option.bind_some, calcNorm_zero f _ _ h]
  rfl

example : HasZero (.cons ⟨3#32, 2#32⟩ (.cons ⟨2#32, 0#32⟩ .nil .nil) .nil) := .inr (.inr (.inl (.inr (.inl rfl))))

/-! ### Clock crossing -/

theorem w64 (p : BitVec 32) : (p.setWidth 64).toNat = p.toNat := by
  rw [BitVec.toNat_setWidth]
  exact Nat.mod_eq_of_lt (by have := p.isLt; omega)

theorem divmul {a : BitVec 64} {p : BitVec 32} : (a / p.setWidth 64 * p.setWidth 64).toNat = a.toNat / p.toNat * p.toNat := by
  rw [BitVec.toNat_mul, BitVec.toNat_udiv, w64]
  exact Nat.mod_eq_of_lt (Nat.lt_of_le_of_lt (Nat.div_mul_le_self _ _) a.isLt)

theorem pos_ne {p : BitVec 32} (h : 0 < p.toNat) : p ≠ 0#32 := by
  intro e; subst e; simp at h

theorem nondvd {a p : Nat} : a / p * p ≠ a ↔ ¬ p ∣ a :=
  ⟨fun h hd => h (Nat.div_mul_cancel hd), fun h e => h ⟨a / p, by rw [Nat.mul_comm]; exact e.symm⟩⟩

/-- C88: with both delays and no overflow of 64 bits, at a tick `cur` the delay computed for crossing from a source to a destination clock exists exactly
when `cur` is an edge of the source clock; adding it to `cur` gives an edge of the destination clock, not before both delays have passed, and
no earlier edge of the destination clock has this property. -/
theorem C88_crossing (cur s d : BitVec 64) (sp dp : BitVec 32) (hs : 0 < sp.toNat) (hd : 0 < dp.toNat)
    (hfit : cur.toNat + s.toNat + d.toNat + dp.toNat < 2 ^ 64) :
    ((crossing cur s sp d dp).isSome = true ↔ sp.toNat ∣ cur.toNat) ∧
    ∀ r, crossing cur s sp d dp = some r → dp.toNat ∣ cur.toNat + r.toNat ∧ cur.toNat + s.toNat + d.toNat ≤ cur.toNat + r.toNat ∧
      ∀ t, dp.toNat ∣ t → cur.toNat + s.toNat + d.toNat ≤ t → cur.toNat + r.toNat ≤ t := by
  obtain ⟨W, hW⟩ : ∃ W, W = 2 ^ 64 := ⟨_, rfl⟩
  have hn : (s + d).toNat = s.toNat + d.toNat := by
    rw [BitVec.toNat_add, ← hW]; exact Nat.mod_eq_of_lt (by omega)
  have hr : (cur + (s + d)).toNat = cur.toNat + s.toNat + d.toNat := by
    rw [BitVec.toNat_add, hn, ← hW]; rw [Nat.mod_eq_of_lt (by omega)]; omega
  have he := divmul (a := cur + (s + d)) (p := dp)
  rw [hr] at he
  have hle := Nat.div_mul_le_self (cur.toNat + s.toNat + d.toNat) dp.toNat
  have hlt : cur.toNat + s.toNat + d.toNat < (cur.toNat + s.toNat + d.toNat) / dp.toNat * dp.toNat + dp.toNat := by
    have h1 := Nat.mod_add_div (cur.toNat + s.toNat + d.toNat) dp.toNat
    have h2 := Nat.mod_lt (cur.toNat + s.toNat + d.toNat) hd
    rw [Nat.mul_comm] at h1
    omega
  have hne : ¬ (sp = 0#32 ∨ dp = 0#32) := by
    rintro (h | h)
    · exact pos_ne hs h
    · exact pos_ne hd h
  have e : crossing cur s sp d dp = if cur / sp.setWidth 64 * sp.setWidth 64 ≠ cur then none else
      if cur + (s + d) ≠ (cur + (s + d)) / dp.setWidth 64 * dp.setWidth 64 then
        if (cur + (s + d)).toNat > ((cur + (s + d)) / dp.setWidth 64 * dp.setWidth 64).toNat then
          some (s + d + (dp.setWidth 64 - (cur + (s + d) - (cur + (s + d)) / dp.setWidth 64 * dp.setWidth 64))) else none
      else some (s + d) := by
    unfold crossing
    rw [if_neg hne]
  rw [e]
  have hsrc : cur / sp.setWidth 64 * sp.setWidth 64 ≠ cur ↔ ¬ sp.toNat ∣ cur.toNat := by
    rw [← nondvd, ← divmul]
    constructor
    · intro h h'; exact h (BitVec.eq_of_toNat_eq h')
    · intro h h'; exact h (by rw [h'])
  by_cases hdv : sp.toNat ∣ cur.toNat
  · rw [if_neg (by rw [hsrc]; exact fun h => h hdv)]
    generalize hE : (cur + (s + d)) / dp.setWidth 64 * dp.setWidth 64 = E at he ⊢
    by_cases hx : cur + (s + d) = E
    · rw [if_neg (by exact fun h => h hx)]
      refine ⟨⟨fun _ => hdv, fun _ => rfl⟩, ?_⟩
      rintro r hr'
      injection hr' with hr'
      subst hr'
      rw [hn]
      have : cur.toNat + s.toNat + d.toNat = (cur.toNat + s.toNat + d.toNat) / dp.toNat * dp.toNat := by rw [← he, ← hx, hr]
      refine ⟨?_, by omega, fun t _ ht => by omega⟩
      rw [← Nat.add_assoc]
      exact ⟨(cur.toNat + s.toNat + d.toNat) / dp.toNat, by rw [Nat.mul_comm]; exact this⟩
    · have hne2 : cur.toNat + s.toNat + d.toNat ≠ (cur.toNat + s.toNat + d.toNat) / dp.toNat * dp.toNat := by
        intro h'; exact hx (BitVec.eq_of_toNat_eq (by rw [hr, he]; exact h'))
      rw [if_pos hx, if_pos (by rw [hr, he]; omega)]
      refine ⟨⟨fun _ => hdv, fun _ => rfl⟩, ?_⟩
      rintro r hr'
      injection hr' with hr'
      have hsub : (cur + (s + d) - E).toNat = (cur.toNat + s.toNat + d.toNat) - (cur.toNat + s.toNat + d.toNat) / dp.toNat * dp.toNat := by
        rw [BitVec.toNat_sub_of_le (by rw [BitVec.le_def, hr, he]; omega), hr, he]
      have hsub2 : (dp.setWidth 64 - (cur + (s + d) - E)).toNat =
          dp.toNat - ((cur.toNat + s.toNat + d.toNat) - (cur.toNat + s.toNat + d.toNat) / dp.toNat * dp.toNat) := by
        rw [BitVec.toNat_sub_of_le (by rw [BitVec.le_def, hsub, w64]; omega), hsub, w64]
      have hrn : r.toNat = s.toNat + d.toNat + (dp.toNat - ((cur.toNat + s.toNat + d.toNat) - (cur.toNat + s.toNat + d.toNat) / dp.toNat * dp.toNat)) := by
        rw [← hr', BitVec.toNat_add, hn, hsub2, ← hW]
        exact Nat.mod_eq_of_lt (by omega)
      have hsum : cur.toNat + r.toNat = ((cur.toNat + s.toNat + d.toNat) / dp.toNat + 1) * dp.toNat := by
        rw [hrn, Nat.add_mul, Nat.one_mul]; omega
      refine ⟨⟨_, by rw [hsum, Nat.mul_comm]⟩, by omega, ?_⟩
      rintro t ⟨k, rfl⟩ ht
      rw [hsum, Nat.mul_comm]
      apply Nat.mul_le_mul_left
      have hlt2 : (cur.toNat + s.toNat + d.toNat) / dp.toNat * dp.toNat < dp.toNat * k := by omega
      rw [Nat.mul_comm] at hlt2
      have := Nat.lt_of_mul_lt_mul_left hlt2
      omega
  · rw [if_pos (hsrc.2 hdv)]
    exact ⟨⟨fun h => by simp at h, fun h => absurd h hdv⟩, fun r hr => by simp at hr⟩

/-- from period 4 to period 6, at tick 8 with delays 4 and 6: arrival at 18, no correction; with delays 4 and 0: 12; with delay 0: 12 -/
example : crossing 8#64 4#64 4#32 6#64 6#32 = some 10#64 ∧ crossing 8#64 0#64 4#32 0#64 6#32 = some 4#64 ∧ crossing 9#64 0#64 4#32 0#64 6#32 = none := by decide +kernel

/-- C88 (reverse): for an arrival tick `arr` and delays that have passed since tick 0, the reverse delay exists exactly when `arr` is an edge of the destination
clock; subtracting it gives an edge of the source clock from which both delays still fit before `arr`, and it is the latest such edge. -/
theorem C88_reverse (arr s d : BitVec 64) (sp dp : BitVec 32) (hs : 0 < sp.toNat) (hd : 0 < dp.toNat) (hfit : s.toNat + d.toNat ≤ arr.toNat) :
    ((reverseCrossing arr s sp d dp).isSome = true ↔ dp.toNat ∣ arr.toNat) ∧
    ∀ r, reverseCrossing arr s sp d dp = some r → r.toNat ≤ arr.toNat ∧ sp.toNat ∣ arr.toNat - r.toNat ∧ (arr.toNat - r.toNat) + s.toNat + d.toNat ≤ arr.toNat ∧
      ∀ t, sp.toNat ∣ t → t + s.toNat + d.toNat ≤ arr.toNat → t ≤ arr.toNat - r.toNat := by
  obtain ⟨W, hW⟩ : ∃ W, W = 2 ^ 64 := ⟨_, rfl⟩
  have hlt : arr.toNat < W := by rw [hW]; exact arr.isLt
  have hn : (s + d).toNat = s.toNat + d.toNat := by
    rw [BitVec.toNat_add, ← hW]; exact Nat.mod_eq_of_lt (by omega)
  have hr : (arr - (s + d)).toNat = arr.toNat - (s.toNat + d.toNat) := by
    rw [BitVec.toNat_sub_of_le (by rw [BitVec.le_def, hn]; exact hfit), hn]
  have he := divmul (a := arr - (s + d)) (p := sp)
  rw [hr] at he
  generalize hS : arr.toNat - (s.toNat + d.toNat) = S at hr he
  have hle := Nat.div_mul_le_self S sp.toNat
  have hgt : S < (S / sp.toNat + 1) * sp.toNat := by
    have h1 := Nat.mod_add_div S sp.toNat
    have h2 := Nat.mod_lt S hs
    rw [Nat.mul_comm] at h1
    rw [Nat.add_mul]; omega
  have hmax : ∀ t, sp.toNat ∣ t → t + s.toNat + d.toNat ≤ arr.toNat → t ≤ S / sp.toNat * sp.toNat := by
    rintro t ⟨k, rfl⟩ ht
    rw [Nat.mul_comm]
    apply Nat.mul_le_mul_right
    have : sp.toNat * k < sp.toNat * (S / sp.toNat + 1) := by
      rw [Nat.mul_comm sp.toNat (S / sp.toNat + 1)]; omega
    have := Nat.lt_of_mul_lt_mul_left this
    omega
  have hne : ¬ (sp = 0#32 ∨ dp = 0#32) := by
    rintro (h | h)
    · exact pos_ne hs h
    · exact pos_ne hd h
  have e : reverseCrossing arr s sp d dp = if arr ≠ arr / dp.setWidth 64 * dp.setWidth 64 then none else
      if arr - (s + d) ≠ (arr - (s + d)) / sp.setWidth 64 * sp.setWidth 64 then
        if (arr - (s + d)).toNat > ((arr - (s + d)) / sp.setWidth 64 * sp.setWidth 64).toNat then
          some (s + d + (arr - (s + d) - (arr - (s + d)) / sp.setWidth 64 * sp.setWidth 64)) else none
      else some (s + d) := by
    unfold reverseCrossing
    rw [if_neg hne]
  rw [e]
  have hdst : arr ≠ arr / dp.setWidth 64 * dp.setWidth 64 ↔ ¬ dp.toNat ∣ arr.toNat := by
    rw [← nondvd, ← divmul]
    constructor
    · intro h h'; exact h (BitVec.eq_of_toNat_eq h'.symm)
    · intro h h'; exact h (by rw [← h'])
  by_cases hdv : dp.toNat ∣ arr.toNat
  · rw [if_neg (by rw [hdst]; exact fun h => h hdv)]
    generalize hE : (arr - (s + d)) / sp.setWidth 64 * sp.setWidth 64 = E at he ⊢
    by_cases hx : arr - (s + d) = E
    · rw [if_neg (by exact fun h => h hx)]
      refine ⟨⟨fun _ => hdv, fun _ => rfl⟩, ?_⟩
      rintro r hr'
      injection hr' with hr'
      subst hr'
      rw [hn, hS]
      have : S = S / sp.toNat * sp.toNat := by rw [← he, ← hx, hr]
      refine ⟨hfit, ⟨S / sp.toNat, by rw [Nat.mul_comm]; exact this⟩, by omega, fun t h1 h2 => ?_⟩
      have := hmax t h1 h2
      omega
    · have hne2 : S ≠ S / sp.toNat * sp.toNat := by
        intro h'; exact hx (BitVec.eq_of_toNat_eq (by rw [hr, he]; exact h'))
      rw [if_pos hx, if_pos (by rw [hr, he]; omega)]
      refine ⟨⟨fun _ => hdv, fun _ => rfl⟩, ?_⟩
      rintro r hr'
      injection hr' with hr'
      have hsub : (arr - (s + d) - E).toNat = S - S / sp.toNat * sp.toNat := by
        rw [BitVec.toNat_sub_of_le (by rw [BitVec.le_def, hr, he]; omega), hr, he]
      have hrn : r.toNat = s.toNat + d.toNat + (S - S / sp.toNat * sp.toNat) := by
        rw [← hr', BitVec.toNat_add, hn, hsub, ← hW]
        exact Nat.mod_eq_of_lt (by omega)
      have hsum : arr.toNat - r.toNat = S / sp.toNat * sp.toNat := by rw [hrn]; omega
      rw [hsum]
      exact ⟨by omega, ⟨_, Nat.mul_comm _ _⟩, by omega, hmax⟩
  · rw [if_pos (hdst.2 hdv)]
    exact ⟨⟨fun h => by simp at h, fun h => absurd h hdv⟩, fun r hr => by simp at hr⟩

/-- for an arrival at 18 on a clock of period 6, sent over delays 4 and 6 from a clock of period 4: sent at 8; with no delays: sent at 16 -/
example : reverseCrossing 18#64 4#64 4#32 6#64 6#32 = some 10#64 ∧ reverseCrossing 18#64 0#64 4#32 0#64 6#32 = some 2#64 := by decide +kernel

/-- C88 (forward and reverse agree): something sent at an edge `t` of the source clock arrives no later than the edge `arr` of the destination clock exactly
when `t` is no later than the sending tick computed backwards from `arr`. -/
theorem C88_agree (t arr s d r r' : BitVec 64) (sp dp : BitVec 32) (hs : 0 < sp.toNat) (hd : 0 < dp.toNat)
    (hfit : t.toNat + s.toNat + d.toNat + dp.toNat < 2 ^ 64) (hfit' : s.toNat + d.toNat ≤ arr.toNat)
    (h : crossing t s sp d dp = some r) (h' : reverseCrossing arr s sp d dp = some r') :
    t.toNat + r.toNat ≤ arr.toNat ↔ t.toNat ≤ arr.toNat - r'.toNat := by
  have hc := C88_crossing t s d sp dp hs hd hfit
  have hr := C88_reverse arr s d sp dp hs hd hfit'
  obtain ⟨_, c2, c3⟩ := hc.2 r h
  obtain ⟨_, r1, r2, r3⟩ := hr.2 r' h'
  have ht : sp.toNat ∣ t.toNat := hc.1.1 (by rw [h]; rfl)
  have ha : dp.toNat ∣ arr.toNat := hr.1.1 (by rw [h']; rfl)
  constructor
  · intro hle
    exact r3 _ ht (by omega)
  · intro hle
    exact c3 _ ha (by omega)

example : crossing 8#64 4#64 4#32 0#64 6#32 = some 4#64 ∧ reverseCrossing 12#64 4#64 4#32 0#64 6#32 = some 4#64 := by decide +kernel

/-! ### Conversions -/

theorem getTick_toNat {p : BitVec 32} {c : BitVec 64} (h : c.toNat * p.toNat < 2 ^ 64) : (getTick p c).toNat = c.toNat * p.toNat := by
  unfold getTick
  rw [BitVec.toNat_mul, w64]
  exact Nat.mod_eq_of_lt h

/-- C89: the tick of a cycle lies in that cycle, at its start (unless the product overflows 64 bits). -/
theorem C89_tick_cycle (p : BitVec 32) (c : BitVec 64) (hp : 0 < p.toNat) (h : c.toNat * p.toNat < 2 ^ 64) :
    (getTick p c).toNat = c.toNat * p.toNat ∧ getCycle p (getTick p c) = some c ∧ isPosedge p (getTick p c) = some true := by
  refine ⟨getTick_toNat h, ?_, ?_⟩
  · unfold getCycle
    rw [if_neg (pos_ne hp)]
    congr 1
    apply BitVec.eq_of_toNat_eq
    rw [BitVec.toNat_udiv, w64, getTick_toNat h, Nat.mul_div_cancel _ hp]
  · unfold isPosedge
    rw [if_neg (pos_ne hp)]
    congr 1
    rw [beq_iff_eq]
    apply BitVec.eq_of_toNat_eq
    rw [BitVec.toNat_umod, w64, getTick_toNat h, Nat.mul_mod_left]
    rfl

example : getTick 5#32 7#64 = 35#64 ∧ getCycle 5#32 35#64 = some 7#64 := by decide

/-- C89: every tick lies in its cycle: at or after the cycle's first tick and before the next cycle's; the cycle is never lower for a later tick; and
"positive edge" means exactly that the tick is the first one of its cycle. -/
theorem C89_cycle_tick (p : BitVec 32) (t : BitVec 64) (hp : 0 < p.toNat) :
    ∃ c, getCycle p t = some c ∧ (getTick p c).toNat ≤ t.toNat ∧ t.toNat < (getTick p c).toNat + p.toNat ∧
      (isPosedge p t = some true ↔ getTick p c = t) ∧ ∀ t' c', t.toNat ≤ t'.toNat → getCycle p t' = some c' → c.toNat ≤ c'.toNat := by
  have hc : ∀ t : BitVec 64, getCycle p t = some (t / p.setWidth 64) := fun t => by unfold getCycle; rw [if_neg (pos_ne hp)]
  have hg : (getTick p (t / p.setWidth 64)).toNat = t.toNat / p.toNat * p.toNat := by
    unfold getTick; exact divmul
  refine ⟨_, hc t, ?_, ?_, ?_, ?_⟩
  · rw [hg]; exact Nat.div_mul_le_self _ _
  · rw [hg]
    have h1 := Nat.mod_add_div t.toNat p.toNat
    have h2 := Nat.mod_lt t.toNat hp
    rw [Nat.mul_comm] at h1
    omega
  · unfold isPosedge
    rw [if_neg (pos_ne hp)]
    have : (some (t % p.setWidth 64 == 0#64) = some true) ↔ t.toNat % p.toNat = 0 := by
      rw [Option.some.injEq, beq_iff_eq, ← BitVec.toNat_inj, BitVec.toNat_umod, w64]
      exact Iff.rfl
    rw [this, ← BitVec.toNat_inj, hg]
    have h1 := Nat.mod_add_div t.toNat p.toNat
    rw [Nat.mul_comm] at h1
    omega
  · intro t' c' hle h'
    rw [hc t'] at h'
    injection h' with h'
    subst h'
    rw [BitVec.toNat_udiv, BitVec.toNat_udiv, w64]
    exact Nat.div_le_div_right hle

example : getCycle 5#32 38#64 = some 7#64 ∧ isPosedge 5#32 38#64 = some false := by decide

/-- C89 is violated by `getAbsoluteTick`: the tick it gives for a cycle lies in the cycle before, and for cycle 0 it lies at the end of time. -/
theorem C89_absolute_violated : getCycle 5#32 (getAbsoluteTick 5#32 7#64) = some 6#64 ∧ (getAbsoluteTick 5#32 0#64).toNat = 2 ^ 64 - 5 := by
  decide

/-- C89 (what `getAbsoluteTick` does): the first tick of the cycle before. -/
theorem C89_absolute_partial (p : BitVec 32) (c : BitVec 64) (_hp : 0 < p.toNat) (hc : 0 < c.toNat) (h : c.toNat * p.toNat < 2 ^ 64) :
    (getAbsoluteTick p c).toNat + p.toNat = (getTick p c).toNat := by
  rw [getTick_toNat h]
  obtain ⟨W, hW⟩ : ∃ W, W = 2 ^ 64 := ⟨_, rfl⟩
  rw [← hW] at h
  have e : (c - 1#64).toNat = c.toNat - 1 := by
    rw [BitVec.toNat_sub_of_le (by rw [BitVec.le_def]; exact hc)]; rfl
  have hm : (c.toNat - 1) * p.toNat + p.toNat = c.toNat * p.toNat := by
    have := Nat.add_mul (c.toNat - 1) 1 p.toNat
    rw [Nat.one_mul, Nat.sub_add_cancel hc] at this
    exact this.symm
  unfold getAbsoluteTick
  rw [BitVec.toNat_mul, w64, e, ← hW, Nat.mod_eq_of_lt (by omega)]
  exact hm

example : getAbsoluteTick 5#32 7#64 = 30#64 := by decide

end Sparta.Clock
