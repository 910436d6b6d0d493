import Verif.Values.Model
/-! Properties C42, C43, C71, C72, C73: value wrappers. -/
namespace Sparta.Values

/-! ### C42: BoundedValue -/

/-- a usable BoundedValue: bounds of the type, value between them -/
def BV.Ok (t : Ty) (b : BV) : Prop := t.has b.lo ∧ t.has b.hi ∧ b.lo ≤ b.v ∧ b.v ≤ b.hi

theorem BV.Ok.has {t : Ty} {b : BV} (h : b.Ok t) : t.has b.v := ⟨Int.le_trans h.1.1 h.2.2.1, Int.le_trans h.2.2.2 h.2.1.2⟩

theorem u64_has {t : Ty} {x : Int} (h : t.has x) (h0 : 0 ≤ x) : Ty.u64.has x := by
  cases t <;> simp only [Ty.has, Ty.max, Ty.min, Ty.size] at * <;> omega

theorem checkLower_eq {t u : Ty} {lo x : Int} (hl : t.has lo) (hx : u.has x) : checkLower t u lo x = decide (lo ≤ x) := by
  unfold checkLower
  split
  · rename_i hs; exact geC_same hs hx hl
  · rename_i hs
    split
    · rename_i hu
      have hx0 : 0 ≤ x := by
        have := hx.1
        cases u <;> simp_all [Ty.signed, Ty.min]
      split
      · rename_i h0
        rw [Ty.conv_of_has (u64_has hl h0), geC_same (by simpa [Ty.signed] using hu) hx (u64_has hl h0)]
      · symm; simp; omega
    · rename_i hu
      have ht : t.signed = false := by cases h : t.signed <;> simp_all
      by_cases h0 : 0 ≤ x
      · rw [Ty.conv_of_has (u64_has hx h0), geC_same (by simpa [Ty.signed] using ht.symm) (u64_has hx h0) hl]
        simp [h0]
      · have : 0 ≤ lo := by
          have := hl.1
          cases t <;> simp_all [Ty.signed, Ty.min]
        simp [h0]; omega

theorem checkUpper_eq {t u : Ty} {hi x : Int} (hh : t.has hi) (hx : u.has x) (lo : Int) (hlo : t.has lo) (hlx : lo ≤ x) :
    checkUpper t u hi x = decide (x ≤ hi) := by
  unfold checkUpper
  split
  · rename_i hs; exact geC_same hs.symm hh hx
  · rename_i hs
    split
    · rename_i hu
      have hx0 : 0 ≤ x := by
        have := hx.1
        cases u <;> simp_all [Ty.signed, Ty.min]
      by_cases h0 : 0 ≤ hi
      · rw [Ty.conv_of_has (u64_has hh h0), geC_same (by simpa [Ty.signed] using hu.symm) (u64_has hh h0) hx]
        simp [h0]
      · simp [h0]; omega
    · rename_i hu
      have ht : t.signed = false := by cases h : t.signed <;> simp_all
      have h0 : 0 ≤ x := by
        have := hlo.1
        cases t <;> simp_all [Ty.signed, Ty.min] <;> omega
      rw [Ty.conv_of_has (u64_has hx h0), geC_same (by simpa [Ty.signed] using ht) hh (u64_has hx h0)]
      simp [h0]

theorem checkRange_eq {t u : Ty} {b : BV} {x : Int} (hl : t.has b.lo) (hh : t.has b.hi) (hx : u.has x) :
    checkRange t u b x = decide (b.lo ≤ x ∧ x ≤ b.hi) := by
  unfold checkRange
  rw [checkLower_eq hl hx]
  by_cases h : b.lo ≤ x
  · rw [checkUpper_eq hh hx b.lo hl h]
    simp [h]
  · simp [h]

theorem i64_has {t : Ty} {x : Int} (h : t.has x) (hs : t.signed = true) : Ty.i64.has x := by
  cases t <;> simp only [Ty.has, Ty.max, Ty.min, Ty.size, Ty.signed] at * <;> first | exact absurd hs (by decide) | omega

theorem nonneg_of_unsigned {t : Ty} {x : Int} (h : t.has x) (hs : t.signed = false) : 0 ≤ x := by
  have := h.1
  cases t <;> simp_all [Ty.signed, Ty.min]

theorem has_min (t : Ty) : t.has t.min := ⟨Int.le_refl _, by have := t.size_pos; unfold Ty.max; omega⟩
theorem has_max (t : Ty) : t.has t.max := ⟨by have := t.size_pos; unfold Ty.max; omega, Int.le_refl _⟩
theorem max_nonneg (t : Ty) : 0 ≤ t.max := by cases t <;> decide

theorem sane_of {t u v w : Ty} {x lo hi : Int} (hx : u.has x) (hlo : v.has lo) (hhi : w.has hi) (htl : t.has lo) (hth : t.has hi)
    (hlt : lo < hi) (h1 : lo ≤ x) (h2 : x ≤ hi) : sane t u v w x lo hi = true := by
  have htx : t.has x := ⟨Int.le_trans htl.1 h1, Int.le_trans h2 hth.2⟩
  have e3 := Ty.conv_of_has (u64_has (has_max t) (max_nonneg t))
  unfold sane
  dsimp only
  split
  · rename_i hs
    rw [gtC_same (hs.2.2.symm.trans hs.2.1) hhi hlo, geC_same hs.2.2 (has_max t) hhi]
    have := hth.2
    simp; omega
  · rename_i hs
    cases ht : t.signed with
    | false =>
      have hmin : t.min = 0 := by cases t <;> simp_all [Ty.signed, Ty.min]
      have hl0 := nonneg_of_unsigned htl ht
      have hx0 : 0 ≤ x := by omega
      have hh0 : 0 ≤ hi := by omega
      have := hth.2
      rw [Ty.conv_of_has (u64_has htl hl0), Ty.conv_of_has (u64_has hth hh0), e3, hmin]
      simp [hx0, hl0, hh0, hlt, this]
      exact hl0
    | true =>
      have := hth.2
      have hm := htl.1
      have e4 := Ty.conv_of_has (i64_has (has_max t) ht)
      have e5 := Ty.conv_of_has (i64_has (has_min t) ht)
      have e6 := Ty.conv_of_has (i64_has htl ht)
      have e7 := Ty.conv_of_has (i64_has hth ht)
      rw [e4, e5, e6, e7]
      simp only [Bool.not_true, Bool.false_eq_true, if_false]
      split
      · rename_i hu
        have hu' : u.signed = false := by simp at hu; exact hu.1.1
        have hx0 := nonneg_of_unsigned hx hu'
        have := htx.2
        rw [Ty.conv_of_has (u64_has htx hx0), e3]
        simp [*]
      · by_cases hp : 0 < hi
        · by_cases hq : 0 < lo
          · rw [Ty.conv_of_has (u64_has hth (by omega)), Ty.conv_of_has (u64_has htl (by omega)), e3]
            simp [*]
          · rw [Ty.conv_of_has (u64_has hth (by omega)), e3]
            simp [*]
        · simp [*]

/-- C42, construction with bounds that the type can hold: succeeds exactly if the value lies between them, and keeps all
three -/
theorem C42_make_fits (t u v w : Ty) (x lo hi : Int) (hx : u.has x) (hlo : v.has lo) (hhi : w.has hi)
    (htl : t.has lo) (hth : t.has hi) (hlt : lo < hi) :
    BV.make t u v w x lo hi = if lo ≤ x ∧ x ≤ hi then .ok ⟨x, lo, hi⟩ else .threw := by
  unfold BV.make
  dsimp only
  rw [Ty.conv_of_has htl, Ty.conv_of_has hth, checkRange_eq (b := ⟨t.conv x, lo, hi⟩) htl hth hx]
  by_cases h : lo ≤ x ∧ x ≤ hi
  · have htx : t.has x := ⟨Int.le_trans htl.1 h.1, Int.le_trans h.2 hth.2⟩
    rw [sane_of hx hlo hhi htl hth hlt h.1 h.2, if_pos h, Ty.conv_of_has htx]
    simp [h]
  · simp [h]

/-- C42, construction: the value is the one given, between the bounds, and the upper bound is the one given; so is the
lower bound if the type can hold it -/
theorem C42_make_partial (t u v w : Ty) (x lo hi : Int) (hx : u.has x) (b : BV)
    (h : BV.make t u v w x lo hi = .ok b) :
    b.Ok t ∧ b.v = x ∧ (t.has lo → b.lo = lo) := by
  unfold BV.make at h
  dsimp only at h
  split at h
  · rename_i hc
    cases h
    rw [Bool.and_eq_true] at hc
    have hr := hc.2
    rw [checkRange_eq (t.conv_has _) (t.conv_has _) hx] at hr
    simp only [decide_eq_true_eq] at hr
    have hxt : t.has x := ⟨Int.le_trans (t.conv_has lo).1 hr.1, Int.le_trans hr.2 (t.conv_has hi).2⟩
    have e := Ty.conv_of_has hxt
    exact ⟨⟨t.conv_has _, t.conv_has _, by simp only [e]; exact hr.1, by simp only [e]; exact hr.2⟩, e, fun hl => Ty.conv_of_has hl⟩
  · cases h

/-- when all types have the same signedness the upper bound is the one given -/
theorem C42_make_upper (t u v w : Ty) (x lo hi : Int) (hh : w.has hi)
    (hs : t.signed = u.signed ∧ t.signed = v.signed ∧ t.signed = w.signed) (hmin : t.min ≤ hi) (b : BV)
    (h : BV.make t u v w x lo hi = .ok b) : b.hi = hi := by
  unfold BV.make at h
  dsimp only at h
  split at h
  · rename_i hc
    cases h
    rw [Bool.and_eq_true] at hc
    have h1 := hc.1
    unfold sane at h1
    rw [if_pos hs, Bool.and_eq_true] at h1
    have hmax : t.has t.max := ⟨by have := t.size_pos; unfold Ty.max; omega, Int.le_refl _⟩
    rw [geC_same hs.2.2 hmax hh] at h1
    simp only [decide_eq_true_eq] at h1
    exact Ty.conv_of_has ⟨hmin, h1.2⟩
  · cases h

example : BV.make .u64 .u32 .u16 .u32 25 20 40 = .ok ⟨25, 20, 40⟩ ∧ BV.make .i8 .u32 .i8 .i8 5 (-10) 20 = .ok ⟨5, -10, 20⟩ ∧
    BV.make .u8 .i32 .u8 .u8 (-1) 0 20 = .threw := by decide

/-- the lower bound is not checked against the type: asked for bounds -200 and 100, an `int8_t` BoundedValue gets 56 and
100, and rejects the value 0 -/
theorem C42_make_violated : BV.make .i8 .i32 .i32 .i32 60 (-200) 100 = .ok ⟨60, 56, 100⟩ ∧
    BV.make .i8 .i32 .i32 .i32 0 (-200) 100 = .threw ∧
    (⟨60, 56, 100⟩ : BV).assign .i8 .i32 0 = .threw := by decide

/-- C42: assignment of a value of any integer type -/
theorem C42_assign (t u : Ty) (b : BV) (hb : b.Ok t) (x : Int) (hx : u.has x) :
    b.assign t u x = if b.lo ≤ x ∧ x ≤ b.hi then .ok { b with v := x } else .threw := by
  unfold BV.assign
  rw [checkRange_eq hb.1 hb.2.1 hx]
  by_cases h : b.lo ≤ x ∧ x ≤ b.hi
  · rw [if_pos (by simpa using h), if_pos h]
    rw [Ty.conv_of_has ⟨Int.le_trans hb.1.1 h.1, Int.le_trans h.2 hb.2.1.2⟩]
  · rw [if_neg (by simpa using h), if_neg h]

/-- C42: `++` and `--` -/
theorem C42_incr_decr (t : Ty) (b : BV) (hb : b.Ok t) :
    b.incr t = (if b.v + 1 ≤ b.hi then .ok { b with v := b.v + 1 } else .threw) ∧
    b.decr t = (if b.lo ≤ b.v - 1 then .ok { b with v := b.v - 1 } else .threw) := by
  obtain ⟨h1, h2, h3, h4⟩ := hb
  have key : ∀ y, b.lo ≤ y → y ≤ b.hi → t.has y := fun y hl hh => ⟨Int.le_trans h1.1 hl, Int.le_trans hh h2.2⟩
  constructor
  · unfold BV.incr
    by_cases h : b.v < b.hi
    · have hy := key (b.v + 1) (by omega) (by omega)
      rw [if_pos h, if_pos (by omega), arith_has (Ty.promote_has hy)]
      dsimp only
      rw [checkRange_eq h1 h2 (Ty.promote_has hy), if_pos (by simp; omega), Ty.conv_of_has hy]
    · rw [if_neg h, if_neg (by omega)]
  · unfold BV.decr
    by_cases h : b.lo < b.v
    · have hy := key (b.v - 1) (by omega) (by omega)
      rw [if_pos h, if_pos (by omega), arith_has (Ty.promote_has hy)]
      dsimp only
      rw [checkRange_eq h1 h2 (Ty.promote_has hy), if_pos (by simp; omega), Ty.conv_of_has hy]
    · rw [if_neg h, if_neg (by omega)]

theorem signed_of_neg {u : Ty} {x : Int} (h : u.has x) (hx : x < 0) : u.signed = true := by
  have := h.1
  cases u <;> simp_all [Ty.min, Ty.signed] <;> omega

/-- `conv` only depends on the value modulo the size, and sizes divide each other -/
theorem conv_add (t c : Ty) (h : t.size ∣ c.size) (x y : Int) : t.conv (c.conv (c.conv x + c.conv y)) = t.conv (x + y) ∧
    t.conv (c.conv (c.conv x - c.conv y)) = t.conv (x - y) := by
  have hmod : ∀ z, (c.conv z - z) % t.size = 0 := by
    intro z
    refine Int.emod_eq_zero_of_dvd (Int.dvd_trans h ?_)
    refine ⟨-((z - c.min) / c.size), ?_⟩
    unfold Ty.conv
    have := Int.mul_ediv_add_emod (z - c.min) c.size
    rw [Int.mul_neg]
    omega
  have hcongr : ∀ a b, (a - b) % t.size = 0 → t.conv a = t.conv b := by
    intro a b hab
    unfold Ty.conv
    congr 1
    have : (a - t.min) = (b - t.min) + (a - b) := by omega
    rw [this, Int.add_emod, hab, Int.add_zero, Int.emod_emod_of_dvd _ (Int.dvd_refl _)]
  have hx := hmod x
  have hy := hmod y
  constructor
  · apply hcongr
    have h3 := hmod (c.conv x + c.conv y)
    have : c.conv (c.conv x + c.conv y) - (x + y) = (c.conv (c.conv x + c.conv y) - (c.conv x + c.conv y)) + ((c.conv x - x) + (c.conv y - y)) := by omega
    rw [this]
    exact Int.emod_eq_zero_of_dvd (Int.dvd_add (Int.dvd_of_emod_eq_zero h3) (Int.dvd_add (Int.dvd_of_emod_eq_zero hx) (Int.dvd_of_emod_eq_zero hy)))
  · apply hcongr
    have h3 := hmod (c.conv x - c.conv y)
    have : c.conv (c.conv x - c.conv y) - (x - y) = (c.conv (c.conv x - c.conv y) - (c.conv x - c.conv y)) + ((c.conv x - x) - (c.conv y - y)) := by omega
    rw [this]
    exact Int.emod_eq_zero_of_dvd (Int.dvd_add (Int.dvd_of_emod_eq_zero h3) (Int.dvd_sub (Int.dvd_of_emod_eq_zero hx) (Int.dvd_of_emod_eq_zero hy)))

theorem size_dvd_common (t u : Ty) : t.size ∣ (t.common u).size := by
  cases t <;> cases u <;> decide

/-- if the common type is signed it can hold both operands and everything the left type can hold -/
theorem common_signed_has (t u : Ty) (h : (t.common u).signed = true) (x : Int) :
    (t.has x → (t.common u).has x) ∧ (u.has x → (t.common u).has x) := by
  cases t <;> cases u <;> first
    | exact absurd h (by decide)
    | (simp only [Ty.has, Ty.max]; simp [Ty.common, Ty.promote, Ty.signed, Ty.bits, Ty.min, Ty.size]; try omega)

theorem addTo_eq (t u : Ty) (v x : Int) (hv : t.has v) (hx : u.has x) (hr : t.has (v + x)) : addTo t u v x = some (v + x) := by
  unfold addTo arith
  split
  · rename_i hs
    rw [Ty.conv_of_has ((common_signed_has t u hs v).1 hv), Ty.conv_of_has ((common_signed_has t u hs x).2 hx),
      if_pos ((common_signed_has t u hs _).1 hr), Option.map_some, Ty.conv_of_has hr]
  · rw [Option.map_some, (conv_add t _ (size_dvd_common t u) v x).1, Ty.conv_of_has hr]

theorem subFrom_eq (t u : Ty) (v x : Int) (hv : t.has v) (hx : u.has x) (hr : t.has (v - x)) : subFrom t u v x = some (v - x) := by
  unfold subFrom arith
  split
  · rename_i hs
    rw [Ty.conv_of_has ((common_signed_has t u hs v).1 hv), Ty.conv_of_has ((common_signed_has t u hs x).2 hx),
      if_pos ((common_signed_has t u hs _).1 hr), Option.map_some, Ty.conv_of_has hr]
  · rw [Option.map_some, (conv_add t _ (size_dvd_common t u) v x).2, Ty.conv_of_has hr]

theorem room_has {t : Ty} {r : Int} (h0 : 0 ≤ r) (h : r ≤ t.max) : t.promote.has r ∧ Ty.u64.has r := by
  cases t <;> simp only [Ty.has, Ty.promote, Ty.max, Ty.min, Ty.size] at * <;> omega

theorem neg_has {u : Ty} {x : Int} (h : u.has x) (hn : x < 0) (hm : x ≠ u.promote.min) : u.promote.has (-x) ∧ Ty.u64.has (-x) := by
  cases u <;> simp only [Ty.has, Ty.promote, Ty.max, Ty.min, Ty.size] at * <;> omega

/-- C42: `+=` and `-=`, if the distance between the bounds fits the type and the operand is not the most negative value
of its (promoted) type.  Missing: the other cases, where the code overflows. -/
theorem C42_add_sub_partial (t u : Ty) (b : BV) (hb : b.Ok t) (x : Int) (hx : u.has x) (hw : b.hi - b.lo ≤ t.max) (hm : x ≠ u.promote.min ∨ 0 ≤ x) :
    b.add t u x = (if b.lo ≤ b.v + x ∧ b.v + x ≤ b.hi then .ok { b with v := b.v + x } else .threw) ∧
    b.sub t u x = (if b.lo ≤ b.v - x ∧ b.v - x ≤ b.hi then .ok { b with v := b.v - x } else .threw) := by
  have hv := hb.has
  obtain ⟨h1, h2, h3, h4⟩ := hb
  have key : ∀ y, b.lo ≤ y → y ≤ b.hi → t.has y := fun y hl hh => ⟨Int.le_trans h1.1 hl, Int.le_trans hh h2.2⟩
  obtain ⟨a1, a2⟩ := room_has (t := t) (r := b.hi - b.v) (by omega) (by omega)
  obtain ⟨b1, b2⟩ := room_has (t := t) (r := b.v - b.lo) (by omega) (by omega)
  unfold BV.add BV.sub
  by_cases h0 : 0 ≤ x
  · rw [if_pos h0, if_pos h0]
    unfold BV.move
    simp only [arith_has a1, arith_has b1, Ty.conv_of_has (u64_has hx h0), Ty.conv_of_has a2, Ty.conv_of_has b2]
    constructor
    · by_cases h : x ≤ b.hi - b.v
      · rw [if_pos h, if_pos (by omega), addTo_eq t u _ _ hv hx (key _ (by omega) (by omega))]
      · rw [if_neg h, if_neg (by omega)]
    · by_cases h : x ≤ b.v - b.lo
      · rw [if_pos h, if_pos (by omega), subFrom_eq t u _ _ hv hx (key _ (by omega) (by omega))]
      · rw [if_neg h, if_neg (by omega)]
  · rw [if_neg h0, if_neg h0]
    obtain ⟨n1, n2⟩ := neg_has hx (by omega) (by omega)
    unfold BV.move
    simp only [arith_has a1, arith_has b1, arith_has n1, Ty.conv_of_has n2, Ty.conv_of_has a2, Ty.conv_of_has b2]
    constructor
    · by_cases h : -x ≤ b.v - b.lo
      · rw [if_pos h, if_pos (by omega), addTo_eq t u _ _ hv hx (key _ (by omega) (by omega))]
      · rw [if_neg h, if_neg (by omega)]
    · by_cases h : -x ≤ b.hi - b.v
      · rw [if_pos h, if_pos (by omega), subFrom_eq t u _ _ hv hx (key _ (by omega) (by omega))]
      · rw [if_neg h, if_neg (by omega)]

example : (⟨5, -10, 20⟩ : BV).Ok .i8 ∧ (⟨5, -10, 20⟩ : BV).add .i8 .u64 15 = .ok ⟨20, -10, 20⟩ ∧
    (⟨5, -10, 20⟩ : BV).sub .i8 .i64 16 = .threw := by unfold BV.Ok; decide

/-- with the default bounds of `int` any negative value makes `+= 1` overflow -/
theorem C42_overflow_violated : (⟨-5, -2147483648, 2147483647⟩ : BV).Ok .i32 ∧
    (⟨-5, -2147483648, 2147483647⟩ : BV).add .i32 .i32 1 = .ub := by unfold BV.Ok; decide

/-- the value asked for by a call -/
def BVOp.target (v : Int) : BVOp → Int
  | .assign _ x => x
  | .incr => v + 1
  | .decr => v - 1
  | .add _ x => v + x
  | .sub _ x => v - x

/-- the operand is a value of its type, and not the most negative one for `+=`, `-=` -/
def BVOp.legal : BVOp → Prop
  | .assign u x => u.has x
  | .add u x | .sub u x => u.has x ∧ (x ≠ u.promote.min ∨ 0 ≤ x)
  | _ => True

/-- run calls, a call that throws changing nothing; `none` = undefined behaviour -/
def BV.run (t : Ty) : BV → List BVOp → Option BV
  | b, [] => some b
  | b, o :: os => match b.step t o with
    | .ok b' => b'.run t os
    | .threw => b.run t os
    | .ub => none

/-- the intended run: the value changes exactly when the new one is between the bounds -/
def specRun (lo hi : Int) : Int → List BVOp → Int
  | v, [] => v
  | v, o :: os => specRun lo hi (if lo ≤ o.target v ∧ o.target v ≤ hi then o.target v else v) os

theorem specRun_bounds (lo hi v : Int) (h : lo ≤ v ∧ v ≤ hi) (os : List BVOp) : lo ≤ specRun lo hi v os ∧ specRun lo hi v os ≤ hi := by
  induction os generalizing v with
  | nil => exact h
  | cons o os ih => exact ih _ (by split <;> assumption)

/-- C42 for histories, with bounds not further apart than the type's maximum: no undefined behaviour, each call either
takes effect exactly or throws and changes nothing, and the value stays between the bounds -/
theorem C42_history_partial (t : Ty) (b : BV) (hb : b.Ok t) (hw : b.hi - b.lo ≤ t.max) (os : List BVOp) (hl : ∀ o ∈ os, o.legal) :
    b.run t os = some { b with v := specRun b.lo b.hi b.v os } ∧
    b.lo ≤ specRun b.lo b.hi b.v os ∧ specRun b.lo b.hi b.v os ≤ b.hi := by
  refine ⟨?_, specRun_bounds _ _ _ hb.2.2 os⟩
  induction os generalizing b with
  | nil => rfl
  | cons o os ih =>
    have hstep : b.step t o = if b.lo ≤ o.target b.v ∧ o.target b.v ≤ b.hi then .ok { b with v := o.target b.v } else .threw := by
      have ho := hl o (List.mem_cons_self ..)
      have h3 := hb.2.2.1
      have h4 := hb.2.2.2
      cases o with
      | assign u x => exact C42_assign t u b hb x ho
      | incr =>
        refine (C42_incr_decr t b hb).1.trans ?_
        show _ = if b.lo ≤ b.v + 1 ∧ b.v + 1 ≤ b.hi then Res.ok { b with v := b.v + 1 } else Res.threw
        by_cases h : b.v + 1 ≤ b.hi
        · rw [if_pos h, if_pos (by omega)]
        · rw [if_neg h, if_neg (by omega)]
      | decr =>
        refine (C42_incr_decr t b hb).2.trans ?_
        show _ = if b.lo ≤ b.v - 1 ∧ b.v - 1 ≤ b.hi then Res.ok { b with v := b.v - 1 } else Res.threw
        by_cases h : b.lo ≤ b.v - 1
        · rw [if_pos h, if_pos (by omega)]
        · rw [if_neg h, if_neg (by omega)]
      | add u x => exact (C42_add_sub_partial t u b hb x ho.1 hw ho.2).1
      | sub u x => exact (C42_add_sub_partial t u b hb x ho.1 hw ho.2).2
    simp only [BV.run, specRun, hstep]
    by_cases h : b.lo ≤ o.target b.v ∧ o.target b.v ≤ b.hi
    · rw [if_pos h, if_pos h]
      exact ih { b with v := o.target b.v } ⟨hb.1, hb.2.1, h⟩ hw fun o' ho' => hl o' (List.mem_cons_of_mem _ ho')
    · rw [if_neg h, if_neg h]
      exact ih b hb hw fun o' ho' => hl o' (List.mem_cons_of_mem _ ho')

example : (⟨5, 0, 10⟩ : BV).run .u8 [.incr, .add .i32 (-6), .decr, .add .u64 11, .assign .i16 7] = some ⟨7, 0, 10⟩ := by decide

/-! ### C72: bounded_int -/

/-- C72: constructed from an integer of the same signedness, a bounded_int holds exactly that value, and exactly the
values outside the bounds are rejected -/
theorem C72_bounded_int_partial (t a : Ty) (hs : a.signed = t.signed) (lo hi x : Int) (hlo : t.has lo) (hhi : t.has hi) (hx : a.has x) :
    boundedInt t a lo hi x = if lo ≤ x ∧ x ≤ hi then some x else none := by
  have hmin : a.has a.min := ⟨Int.le_refl _, by have := a.size_pos; unfold Ty.max; omega⟩
  have hmax : a.has a.max := ⟨by have := a.size_pos; unfold Ty.max; omega, Int.le_refl _⟩
  have hx1 := hx.1
  have hx2 := hx.2
  have e1 : biLower t a lo x = decide (lo ≤ x) := by
    unfold biLower
    rw [geC_same hs hmin hlo, geC_same hs.symm hlo hmin, geC_same hs hx hlo]
    split
    · rename_i h; simp at h; symm; simp; omega
    · rfl
  have e2 : biUpper t a hi x = decide (x ≤ hi) := by
    unfold biUpper
    rw [geC_same hs hmax hhi, geC_same hs.symm hhi hmax, geC_same hs.symm hhi hx]
    split
    · rename_i h; simp at h; symm; simp; omega
    · rfl
  unfold boundedInt
  rw [e1, e2]
  by_cases h : lo ≤ x ∧ x ≤ hi
  · rw [if_pos (by simpa using h), if_pos h, Ty.conv_of_has ⟨Int.le_trans hlo.1 h.1, Int.le_trans h.2 hhi.2⟩]
  · rw [if_neg (by simpa using h), if_neg h]

example : boundedInt .u8 .u32 0 255 200 = some 200 ∧ boundedInt .u8 .u32 0 255 256 = none ∧
    boundedInt .i16 .i64 (-5) 5 (-6) = none := by decide

/-- with operands of different signedness -1 is accepted as 4294967295 by an unsigned bounded_int, and 5 is rejected by a
signed one -/
theorem C72_bounded_int_violated : boundedInt .u32 .i32 Ty.u32.min Ty.u32.max (-1) = some 4294967295 ∧
    boundedInt .i32 .u32 Ty.i32.min Ty.i32.max 5 = none := by decide

/-! ### C43: LockedValue -/

/-- the call does not write through a reference -/
def LOp.plain {α : Type} : LOp α → Prop
  | .refWrite _ => False
  | _ => True

/-- assignments, which must throw once locked -/
def LOp.writes {α : Type} : LOp α → Bool
  | .assign _ | .setAndLock _ => true
  | _ => false

/-- C43 without references: once locked the value never changes, and every assignment throws.  Missing: writes through
the reference given out by the non-const `getValue()`. -/
theorem C43_locked_partial {α : Type} (s : Locked α) (hl : s.locked = true) (os : List (LOp α)) (ho : ∀ o ∈ os, o.plain) :
    (runOps Locked.step s os).1 = s ∧
    (runOps Locked.step s os).2 = os.map LOp.writes := by
  induction os with
  | nil => exact ⟨rfl, rfl⟩
  | cons o os ih =>
    have hs : s.step o = (s, o.writes) := by
      have := ho o (List.mem_cons_self ..)
      cases o with
      | assign x => simp [Locked.step, hl, LOp.writes]
      | setAndLock x => simp [Locked.step, hl, LOp.writes]
      | lock => simp only [Locked.step, LOp.writes]; rw [← hl]
      | refWrite x => exact this.elim
    obtain ⟨h1, h2⟩ := ih fun o' ho' => ho o' (List.mem_cons_of_mem _ ho')
    simp only [runOps, hs, h1, h2, List.map_cons, true_and]

/-- C43: before that, assignments work, and `setAndLock`, `lock` lock -/
theorem C43_unlocked {α : Type} (s : Locked α) (hl : s.locked = false) (x : α) :
    s.step (.assign x) = (⟨false, x⟩, false) ∧ s.step (.setAndLock x) = (⟨true, x⟩, false) ∧ s.step .lock = (⟨true, s.v⟩, false) := by
  simp [Locked.step, hl]

/-- `getValue() = 9` changes a locked value -/
theorem C43_reference_violated : (runOps Locked.step (⟨false, 1⟩ : Locked Nat) [.setAndLock 5, .refWrite 9]).1 = ⟨true, 9⟩ := rfl

example : (runOps Locked.step (⟨false, 1⟩ : Locked Nat) [.assign 4, .setAndLock 5, .assign 6, .lock, .setAndLock 7]) =
    (⟨true, 5⟩, [false, false, true, false, true]) := by decide

/-! ### C71: ValidValue -/

/-- C71: reading gives the last assigned value, and throws before the first assignment and after `clearValid`, move
construction from it, or copying an invalid one -/
theorem C71_get {α : Type} (s : Valid α) (d x : α) :
    (Valid.empty d).get = none ∧ (s.set x).get = some x ∧ s.clear.get = none ∧
    s.moveNew.1.get = s.get ∧ s.moveNew.2.get = none ∧ (∀ t : Valid α, (t.moveAssign s).1.get = s.get) := by
  refine ⟨rfl, rfl, rfl, rfl, rfl, fun t => rfl⟩

/-- C71: comparing with a plain value -/
theorem C71_compare_value {α : Type} [DecidableEq α] (s : Valid α) (x : α) : s.eqVal x = s.get.map fun v => decide (v = x) := by
  unfold Valid.eqVal Valid.get
  split <;> simp

/-- C71: comparing two, if the right one is valid.  Missing: an invalid right one. -/
theorem C71_compare_partial {α : Type} [DecidableEq α] (s t : Valid α) (y : α) (ht : t.get = some y) : s.eq t = s.get.map fun v => decide (v = y) := by
  unfold Valid.get at ht
  split at ht
  · cases ht
    unfold Valid.eq Valid.get
    split <;> simp
  · cases ht

/-- a comparison with an invalid value does not throw but uses the stale value; a moved-from value stays valid after
move assignment -/
theorem C71_compare_violated : (Valid.empty 0).get = none ∧ ((Valid.empty 0).set 5).eq (((Valid.empty 0).set 5).clear) = some true ∧
    ((Valid.empty 0).moveAssign ((Valid.empty 0).set 5)).2.get = some 5 := by decide

/-! ### C73: AssignOnceObject -/

/-- the value a call tries to assign, if it has one -/
def OOp.value {α : Type} : OOp α → Option α
  | .assign x => some x
  | .assignFrom b => b.get

/-- C73: the first successful assignment decides the value for ever; before it, the default (if any) is read -/
theorem C73_once {α : Type} (s : Once α) (hs : s.set = false) (os : List (OOp α)) :
    (os.foldl Once.step s).get = match os.findSome? OOp.value with | some x => some x | none => s.get := by
  have stay : ∀ (os : List (OOp α)) (s : Once α), s.set = true → os.foldl Once.step s = s := by
    intro os
    induction os with
    | nil => exact fun _ _ => rfl
    | cons o os ih =>
      intro s h
      have : s.step o = s := by cases o <;> simp [Once.step, Once.assign, Once.assignFrom, h]
      rw [List.foldl_cons, this, ih s h]
  induction os with
  | nil => rfl
  | cons o os ih =>
    rw [List.foldl_cons, List.findSome?_cons]
    cases o with
    | assign x =>
      simp only [OOp.value, Once.step, Once.assign, hs]
      rw [stay _ _ rfl]
      rfl
    | assignFrom b =>
      by_cases hb : (b.set || b.defaulted) = true
      · have e1 : s.step (.assignFrom b) = { s with set := true, v := b.v } := by simp [Once.step, Once.assignFrom, hs, hb]
        have e2 : OOp.value (.assignFrom b) = some b.v := by simp [OOp.value, Once.get, hb]
        rw [e1, e2, stay _ _ rfl]
        rfl
      · have e1 : s.step (.assignFrom b) = s := by simp [Once.step, Once.assignFrom, hs, hb]
        have e2 : OOp.value (.assignFrom b) = none := by simp [OOp.value, Once.get, hb]
        rw [e1, e2]
        exact ih

/-- C73: exactly one assignment succeeds -/
theorem C73_second_throws {α : Type} (s s' : Once α) (x y : α) (h : s.assign x = some s') : s'.assign y = none ∧ ∀ b, s'.assignFrom b = none := by
  unfold Once.assign at h
  split at h
  · cases h
  · cases h
    exact ⟨rfl, fun b => rfl⟩

example : (([OOp.assignFrom (Once.empty 3), .assign 4, .assign 5] : List (OOp Nat)).foldl Once.step (Once.withDefault 9)).get = some 4 ∧
    (Once.withDefault 9).get = some 9 ∧ (Once.empty 9).get = none := by decide

end Sparta.Values
