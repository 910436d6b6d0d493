import Verif.Clock.Model
import Verif.Rational.Props
/-! Lemmas on clock trees. -/
namespace Sparta.Clock
open Sparta.MathUtils Sparta.Rational

/-- forget the second component of all labels -/
def Forest.erase {β γ : Type} : Forest (β × γ) → Forest β
  | .nil => .nil
  | .cons a kids sibs => .cons a.1 kids.erase sibs.erase

/-- the periods respect the declared ratios: `period * p = parent's period * c` for every clock -/
def Respects : Nat → Forest (Ratio × Nat) → Prop
  | _, .nil => True
  | q, .cons a kids sibs => 0 < a.2 ∧ a.2 * a.1.p.toNat = q * a.1.c.toNat ∧ Respects a.2 kids ∧ Respects q sibs

/-- periods as natural numbers -/
def nats : Forest (Ratio × BitVec 32) → Forest (Ratio × Nat)
  | .nil => .nil
  | .cons a kids sibs => .cons (a.1, a.2.toNat) (nats kids) (nats sibs)

/-- numerator and denominator of `n / d` in lowest terms -/
def num (n d : Nat) : Nat := n / Nat.gcd n d
def den (n d : Nat) : Nat := d / Nat.gcd n d

/-- with `N / D` the ratio of the parent's period to the root's: no product computed by the code reaches 2^32, where `L` is a common multiple
of all denominators -/
def Fits (L : Nat) : Nat → Nat → Forest Ratio → Prop
  | _, _, .nil => True
  | N, D, .cons r kids sibs =>
    r.p.toNat ≠ 0 ∧ r.c.toNat ≠ 0 ∧ num r.c.toNat r.p.toNat * N < 2 ^ 32 ∧ den r.c.toNat r.p.toNat * D < 2 ^ 32 ∧
    den (r.c.toNat * N) (r.p.toNat * D) ∣ L ∧ num (r.c.toNat * N) (r.p.toNat * D) * L < 2 ^ 32 ∧
    Fits L (num (r.c.toNat * N) (r.p.toNat * D)) (den (r.c.toNat * N) (r.p.toNat * D)) kids ∧ Fits L N D sibs

theorem lowest {r n d p q : Nat} (hq : q ≠ 0) (hd : d ≠ 0) (h : n * q = p * d) (hc : Nat.Coprime n d) (_hr : r = 0) : n = num p q ∧ d = den p q := by
  unfold num den
  by_cases hp : p = 0
  · subst hp
    have hn : n = 0 := by
      rw [Nat.zero_mul] at h
      rcases Nat.mul_eq_zero.1 h with h | h
      · exact h
      · exact absurd h hq
    subst hn
    have hd1 : d = 1 := by simpa using hc
    subst hd1
    rw [Nat.gcd_zero_left, Nat.zero_div, Nat.div_self (by omega)]
    exact ⟨rfl, rfl⟩
  · -- p = n * k, q = d * k
    have h1 : d ∣ q := by
      apply (Nat.Coprime.dvd_of_dvd_mul_left (m := n) (Nat.Coprime.symm hc))
      exact ⟨p, by rw [h, Nat.mul_comm]⟩
    obtain ⟨k, rfl⟩ := h1
    have hk : k ≠ 0 := by intro e; subst e; exact hq rfl
    have h2 : p = n * k := by
      apply Nat.eq_of_mul_eq_mul_right (Nat.pos_of_ne_zero hd)
      rw [← h, Nat.mul_assoc, Nat.mul_comm k d]
    subst h2
    have h3 : Nat.gcd (n * k) (d * k) = k := by
      rw [Nat.gcd_mul_right]
      have : Nat.gcd n d = 1 := hc
      rw [this, Nat.one_mul]
    rw [h3, Nat.mul_div_cancel _ (by omega), Nat.mul_div_cancel _ (by omega)]
    exact ⟨rfl, rfl⟩

theorem Is.parts {w : Nat} {r : Rat w} {p q : Nat} (h : Is r p q) (hq : q ≠ 0) : r.n.toNat = num p q ∧ r.d.toNat = den p q :=
  lowest (r := 0) hq h.1 h.2.1 h.2.2 rfl

theorem is_parts {p q : Nat} (hq : q ≠ 0) : den p q ≠ 0 ∧ num p q * q = p * den p q ∧ Nat.Coprime (num p q) (den p q) := by
  have hg : 0 < Nat.gcd p q := Nat.gcd_pos_of_pos_right _ (by omega)
  obtain ⟨a, ha⟩ := Nat.gcd_dvd_left p q
  obtain ⟨b, hb⟩ := Nat.gcd_dvd_right p q
  unfold num den
  refine ⟨?_, ?_, ?_⟩
  · intro h
    rw [Nat.div_eq_zero_iff] at h
    rcases h with h | h
    · omega
    · have := Nat.le_of_dvd (by omega) (Nat.gcd_dvd_right p q); omega
  · have h1 : p / Nat.gcd p q = a := by
      conv => lhs; arg 1; rw [ha]
      rw [Nat.mul_div_cancel_left _ hg]
    have h2 : q / Nat.gcd p q = b := by
      conv => lhs; arg 1; rw [hb]
      rw [Nat.mul_div_cancel_left _ hg]
    rw [h1, h2]
    conv => lhs; rw [hb]
    conv => rhs; rw [ha]
    simp only [Nat.mul_comm, Nat.mul_left_comm]
  · exact Nat.coprime_div_gcd_div_gcd hg

/-- the root ratio of a clock is exact -/
theorem rootRatio_is {prr : Rat 32} {r : Ratio} (hD : prr.d.toNat ≠ 0) (hp : r.p.toNat ≠ 0) (hc : r.c.toNat ≠ 0)
    (h1 : num r.c.toNat r.p.toNat * prr.n.toNat < 2 ^ 32) (h2 : den r.c.toNat r.p.toNat * prr.d.toNat < 2 ^ 32) :
    ∃ rr, rootRatio prr r = some rr ∧ Is rr (r.c.toNat * prr.n.toNat) (r.p.toNat * prr.d.toNat) := by
  unfold rootRatio
  obtain ⟨q, eq, hq⟩ := C33_make Inst.u32 r.p r.c hc
  have hqn : q.n.toNat ≠ 0 := by
    intro h
    have := hq.2.1
    rw [h, Nat.zero_mul] at this
    rcases Nat.mul_eq_zero.1 this.symm with h' | h'
    · exact hp h'
    · exact hq.1 h'
  obtain ⟨i, ei, hi⟩ := (C33_inv Inst.u32 q).1 hqn
  rw [eq, Option.bind_some, ei, Option.bind_some]
  have hi' : Is i r.c.toNat r.p.toNat := by
    refine hi.congr hqn ?_
    have := hq.2.1
    rw [Nat.mul_comm q.d.toNat, Nat.mul_comm r.c.toNat]
    exact this.symm
  obtain ⟨e1, e2⟩ := Is.parts hi' hp
  obtain ⟨rr, em, _, hm⟩ := C33_mul Inst.u32 i prr hi.1 hD (by rw [e1]; exact h1) (by rw [e2]; exact h2)
  refine ⟨rr, em, ?_⟩
  refine hm.congr (Nat.mul_ne_zero hi.1 hD) ?_
  have := hi'.2.1
  calc i.n.toNat * prr.n.toNat * (r.p.toNat * prr.d.toNat) = (i.n.toNat * r.p.toNat) * (prr.n.toNat * prr.d.toNat) := by
        simp only [Nat.mul_comm, Nat.mul_left_comm]
    _ = (r.c.toNat * i.d.toNat) * (prr.n.toNat * prr.d.toNat) := by rw [this]
    _ = _ := by simp only [Nat.mul_comm, Nat.mul_left_comm]

/-- all denominators divide `M` -/
def AllD (M : Nat) : Forest (Ratio × Rat 32) → Prop
  | .nil => True
  | .cons a kids sibs => a.2.d.toNat ∣ M ∧ AllD M kids ∧ AllD M sibs

theorem AllD.mono {M M' : Nat} (h : M ∣ M') : ∀ {f : Forest (Ratio × Rat 32)}, AllD M f → AllD M' f
  | .nil, _ => trivial
  | .cons _ kids sibs, hf => ⟨Nat.dvd_trans hf.1 h, AllD.mono h (f := kids) hf.2.1, AllD.mono h (f := sibs) hf.2.2⟩

/-- every clock carries its exact root ratio, and the products with `L` fit -/
def Good (L : Nat) : Rat 32 → Forest (Ratio × Rat 32) → Prop
  | _, .nil => True
  | prr, .cons a kids sibs => a.1.p.toNat ≠ 0 ∧ a.1.c.toNat ≠ 0 ∧ Is a.2 (a.1.c.toNat * prr.n.toNat) (a.1.p.toNat * prr.d.toNat) ∧
      a.2.n.toNat * L < 2 ^ 32 ∧ Good L a.2 kids ∧ Good L prr sibs

theorem lcm32_is {u v L : Nat} {a b : BitVec 32} (ha : a.toNat = u) (hb : b.toNat = v) (hu : 0 < u) (h1 : u ∣ L) (h2 : v ∣ L) (hL : 0 < L) (hL2 : L < 2 ^ 32) :
    ∃ c, lcm32 a b = some c ∧ c.toNat = Nat.lcm u v ∧ Nat.lcm u v ∣ L ∧ 0 < Nat.lcm u v := by
  have hd : Nat.lcm u v ∣ L := Nat.lcm_dvd h1 h2
  have hle := Nat.le_of_dvd hL hd
  have hv : 0 < v := Nat.pos_of_dvd_of_pos h2 hL
  obtain ⟨c, e, hc⟩ := C29_lcm_32_partial a b (.inl (by intro e; rw [e] at ha; simp at ha; omega)) (by rw [ha, hb]; omega)
  rw [ha, hb] at hc
  exact ⟨c, e, hc, hd, Nat.lcm_pos hu hv⟩

theorem calcNorm_ok {L : Nat} (hL : 0 < L) (hL2 : L < 2 ^ 32) : ∀ (f : Forest Ratio) (prr : Rat 32) (pn : BitVec 32), prr.d.toNat ≠ 0 → 0 < pn.toNat → pn.toNat ∣ L →
    Fits L prr.n.toNat prr.d.toNat f →
    ∃ pn' f', calcNorm prr pn f = some (pn', f') ∧ pn.toNat ∣ pn'.toNat ∧ pn'.toNat ∣ L ∧ 0 < pn'.toNat ∧ AllD pn'.toNat f' ∧ Good L prr f' ∧ f'.erase = f ∧
      (∀ M, pn.toNat ∣ M → AllD M f' → pn'.toNat ∣ M) := by
  intro f
  induction f with
  | nil =>
    intro prr pn hD hp hd _
    exact ⟨pn, .nil, rfl, Nat.dvd_refl _, hd, hp, trivial, trivial, rfl, fun M h _ => h⟩
  | cons r kids sibs ihk ihs =>
    intro prr pn hD hp hd hf
    obtain ⟨f1, f2, f3, f4, f5, f6, f7, f8⟩ := hf
    obtain ⟨rr, er, hr⟩ := rootRatio_is hD f1 f2 f3 f4
    have hq : r.p.toNat * prr.d.toNat ≠ 0 := Nat.mul_ne_zero f1 hD
    obtain ⟨e1, e2⟩ := Is.parts hr hq
    rw [← e2] at f5
    rw [← e1] at f6
    rw [← e1, ← e2] at f7
    obtain ⟨pn1, el1, hl1, hl1L, hl1p⟩ := lcm32_is (a := pn) (b := rr.d) rfl rfl hp hd f5 hL hL2
    obtain ⟨pn2, kids', ek, k1, k2, k3, k4, k5, k6, k7⟩ := ihk rr pn1 hr.1 (by rw [hl1]; exact hl1p) (by rw [hl1]; exact hl1L) f7
    obtain ⟨pn3, el3, hl3, hl3L, hl3p⟩ := lcm32_is (a := pn) (b := pn2) rfl rfl hp hd k2 hL hL2
    obtain ⟨pn4, sibs', es, s1, s2, s3, s4, s5, s6, s7⟩ := ihs prr pn3 hD (by rw [hl3]; exact hl3p) (by rw [hl3]; exact hl3L) f8
    have d3 : pn2.toNat ∣ pn3.toNat := by rw [hl3]; exact Nat.dvd_lcm_right _ _
    refine ⟨pn4, .cons (r, rr) kids' sibs', ?_, ?_, s2, s3, ⟨?_, ?_, s4⟩, ⟨f1, f2, hr, f6, k5, s5⟩, ?_, ?_⟩
    · unfold calcNorm
      rw [er, Option.bind_some, el1, Option.bind_some, ek, Option.bind_some]
      dsimp only
      rw [el3, Option.bind_some, es, Option.map_some]
    · refine Nat.dvd_trans ?_ s1
      rw [hl3]; exact Nat.dvd_lcm_left _ _
    · refine Nat.dvd_trans (Nat.dvd_trans ?_ k1) (Nat.dvd_trans d3 s1)
      rw [hl1]; exact Nat.dvd_lcm_right _ _
    · exact AllD.mono (Nat.dvd_trans d3 s1) k4
    · show Forest.cons r kids'.erase sibs'.erase = _
      rw [k6, s6]
    · intro M hM hA
      have h1 : pn1.toNat ∣ M := by rw [hl1]; exact Nat.lcm_dvd hM hA.1
      have h2 := k7 M h1 hA.2.1
      have h3 : pn3.toNat ∣ M := by rw [hl3]; exact Nat.lcm_dvd hM h2
      exact s7 M h3 hA.2.2

theorem setPeriod_ok {L : Nat} (hL : 0 < L) {norm : BitVec 32} {rr : Rat 32} (hd : rr.d.toNat ≠ 0) (hn : norm.toNat ∣ L) (hdn : rr.d.toNat ∣ norm.toNat)
    (hf : rr.n.toNat * L < 2 ^ 32) : ∃ p, setPeriod norm rr = some p ∧ p.toNat * rr.d.toNat = rr.n.toNat * norm.toNat := by
  unfold setPeriod
  obtain ⟨n, en, hm⟩ := C33_make Inst.u32 norm 1#32 (by decide)
  rw [en, Option.bind_some]
  have h1 : (1#32).toNat = 1 := rfl
  rw [h1] at hm
  obtain ⟨e1, e2⟩ := Is.parts hm (by omega)
  have e1' : n.n.toNat = norm.toNat := by rw [e1]; unfold num; rw [Nat.gcd_one_right, Nat.div_one]
  have e2' : n.d.toNat = 1 := by rw [e2]; unfold den; rw [Nat.gcd_one_right]
  have hle : norm.toNat ≤ L := Nat.le_of_dvd hL hn
  have hle2 : rr.d.toNat ≤ norm.toNat ∨ norm.toNat = 0 := by
    by_cases h : norm.toNat = 0
    · exact .inr h
    · exact .inl (Nat.le_of_dvd (by omega) hdn)
  obtain ⟨m, em, _, hm2⟩ := C33_mul Inst.u32 rr n hd hm.1 (by rw [e1']; exact Nat.lt_of_le_of_lt (Nat.mul_le_mul_left _ hle) hf)
    (by rw [e2', Nat.mul_one]; exact rr.d.isLt)
  rw [em, Option.bind_some]
  rw [e1', e2', Nat.mul_one] at hm2
  have h3 := C33_toInt (by omega) m _ _ hd hm2
  have h4 : (toInt m).isSome = true := h3.2 (Nat.dvd_trans hdn (Nat.dvd_mul_left _ _))
  obtain ⟨p, hp⟩ := Option.isSome_iff_exists.1 h4
  exact ⟨p, hp, h3.1 p hp⟩

theorem respects_ratio {p d n q pd pn rp rc norm : Nat} (hp : p * d = n * norm) (hq : q * pd = pn * norm) (h : n * (rp * pd) = rc * pn * d) (hd : d ≠ 0) (hpd : pd ≠ 0) :
    p * rp = q * rc := by
  apply Nat.eq_of_mul_eq_mul_right (Nat.pos_of_ne_zero (Nat.mul_ne_zero hd hpd))
  calc p * rp * (d * pd) = (p * d) * (rp * pd) := by simp only [Nat.mul_comm, Nat.mul_left_comm]
    _ = n * norm * (rp * pd) := by rw [hp]
    _ = (n * (rp * pd)) * norm := by simp only [Nat.mul_comm, Nat.mul_left_comm]
    _ = (rc * pn * d) * norm := by rw [h]
    _ = (pn * norm) * (rc * d) := by simp only [Nat.mul_comm, Nat.mul_left_comm]
    _ = (q * pd) * (rc * d) := by rw [hq]
    _ = q * rc * (d * pd) := by simp only [Nat.mul_comm, Nat.mul_left_comm]

theorem setPeriods_ok {L : Nat} (hL : 0 < L) {norm : BitVec 32} (hn : norm.toNat ∣ L) (hpos : 0 < norm.toNat) : ∀ (f : Forest (Ratio × Rat 32)) (prr : Rat 32) (q : Nat),
    prr.n.toNat ≠ 0 → prr.d.toNat ≠ 0 → q * prr.d.toNat = prr.n.toNat * norm.toNat → AllD norm.toNat f → Good L prr f →
    ∃ pf, setPeriods norm f = some pf ∧ Respects q (nats pf) ∧ pf.erase = f.erase := by
  intro f
  induction f with
  | nil => intro _ _ _ _ _ _ _; exact ⟨.nil, rfl, trivial, rfl⟩
  | cons a kids sibs ihk ihs =>
    intro prr q hN hD hq hA hG
    obtain ⟨g1, g2, g3, g4, g5, g6⟩ := hG
    obtain ⟨p, ep, hp⟩ := setPeriod_ok hL g3.1 hn hA.1 g4
    have hnn : a.2.n.toNat ≠ 0 := by
      intro h
      have := g3.2.1
      rw [h, Nat.zero_mul] at this
      rcases Nat.mul_eq_zero.1 this.symm with h' | h'
      · rcases Nat.mul_eq_zero.1 h' with h'' | h''
        · exact g2 h''
        · exact hN h''
      · exact g3.1 h'
    obtain ⟨k', ek, hk, hke⟩ := ihk a.2 p.toNat hnn g3.1 hp hA.2.1 g5
    obtain ⟨s', es, hs, hse⟩ := ihs prr q hN hD hq hA.2.2 g6
    refine ⟨.cons (a.1, p) k' s', ?_, ⟨?_, ?_, hk, hs⟩, ?_⟩
    · show (setPeriod norm a.2).bind _ = _
      rw [ep, Option.bind_some, ek, Option.bind_some, es, Option.map_some]
    · show 0 < p.toNat
      apply Nat.pos_of_ne_zero
      intro h
      rw [h, Nat.zero_mul] at hp
      rcases Nat.mul_eq_zero.1 hp.symm with h' | h'
      · exact hnn h'
      · omega
    · exact respects_ratio hp hq g3.2.1 g3.1 hD
    · show Forest.cons a.1 k'.erase s'.erase = Forest.cons a.1 kids.erase sibs.erase
      rw [hke, hse]

/-- in any assignment of periods the root's period is a multiple of all denominators -/
theorem respects_allD {L root : Nat} : ∀ (f : Forest (Ratio × Rat 32)) (pf : Forest (Ratio × Nat)) (prr : Rat 32) (q : Nat), prr.d.toNat ≠ 0 → Good L prr f →
    Respects q pf → pf.erase = f.erase → q * prr.d.toNat = root * prr.n.toNat → AllD root f := by
  intro f
  induction f with
  | nil => intro _ _ _ _ _ _ _ _; trivial
  | cons a kids sibs ihk ihs =>
    intro pf prr q hD hG hR he hq
    cases pf with
    | nil => cases he
    | cons b bk bs =>
      obtain ⟨g1, g2, g3, g4, g5, g6⟩ := hG
      obtain ⟨r1, r2, r3, r4⟩ := hR
      injection he with e1 e2 e3
      rw [e1] at r2
      have key : b.2 * a.2.d.toNat = root * a.2.n.toNat := by
        apply Nat.eq_of_mul_eq_mul_right (Nat.pos_of_ne_zero (Nat.mul_ne_zero g1 hD))
        calc b.2 * a.2.d.toNat * (a.1.p.toNat * prr.d.toNat) = (b.2 * a.1.p.toNat) * (a.2.d.toNat * prr.d.toNat) := by simp only [Nat.mul_comm, Nat.mul_left_comm]
          _ = (q * prr.d.toNat) * (a.1.c.toNat * a.2.d.toNat) := by rw [r2]; simp only [Nat.mul_comm, Nat.mul_left_comm]
          _ = root * (a.1.c.toNat * prr.n.toNat * a.2.d.toNat) := by rw [hq]; simp only [Nat.mul_comm, Nat.mul_left_comm]
          _ = root * (a.2.n.toNat * (a.1.p.toNat * prr.d.toNat)) := by rw [g3.2.1]
          _ = _ := by simp only [Nat.mul_assoc]
      refine ⟨?_, ihk bk a.2 b.2 g3.1 g5 r3 e2 key, ihs bs prr q hD g6 r4 e3 hq⟩
      exact Nat.Coprime.dvd_of_dvd_mul_right (Nat.Coprime.symm g3.2.2) ⟨b.2, by rw [← key, Nat.mul_comm]⟩

end Sparta.Clock
