import Verif.ArchData.Layout
import Verif.ArchData.Lemmas
/-! Lemmas about segment placement. -/
namespace Sparta.ArchData.Layout

/-- number of placed segments among the first `n` -/
def cnt (pl : Nat → Option Nat) : Nat → Nat
  | 0 => 0
  | n + 1 => cnt pl n + if (pl n).isSome then 1 else 0

theorem cnt_le (pl : Nat → Option Nat) (n : Nat) : cnt pl n ≤ n := by
  induction n with
  | zero => exact Nat.le_refl 0
  | succ n ih => unfold cnt; split <;> omega

theorem cnt_upd_ge (pl : Nat → Option Nat) (i x n : Nat) (h : n ≤ i) : cnt (upd pl i (some x)) n = cnt pl n := by
  induction n with
  | zero => rfl
  | succ n ih =>
    unfold cnt
    rw [ih (by omega), upd_other _ _ (by omega)]

theorem cnt_upd (pl : Nat → Option Nat) (i x n : Nat) (h : i < n) (hn : pl i = none) :
    cnt (upd pl i (some x)) n = cnt pl n + 1 := by
  induction n with
  | zero => omega
  | succ n ih =>
    unfold cnt
    by_cases e : n = i
    · subst e
      rw [cnt_upd_ge _ _ _ _ (Nat.le_refl _), hn]
      simp [upd]
    · rw [ih (by omega), upd_other _ _ e]
      omega

theorem cnt_lt (pl : Nat → Option Nat) (i n : Nat) (h : i < n) (hn : pl i = none) : cnt pl n + 1 ≤ n := by
  rw [← cnt_upd pl i 0 n h hn]
  exact cnt_le _ _

theorem div_of {x q L : Nat} (h1 : q * L ≤ x) (h2 : x < q * L + L) : x / L = q :=
  Nat.div_eq_of_lt_le h1 (by rw [Nat.add_mul, Nat.one_mul]; exact h2)

/-- the relation between a line size and the bound `C` on the space taken per segment -/
structure LineOk (L C : Nat) : Prop where
  pos : 0 < L
  le : L ≤ C
  four : 4 ∣ C
  cases : (4 ∣ L ∧ C = L) ∨ (L ∣ 4 ∧ C = 4)

theorem lineOk (lsb : Nat) : LineOk (2 ^ lsb) (max (2 ^ lsb) 4) := by
  have hp : 0 < 2 ^ lsb := Nat.two_pow_pos lsb
  match lsb with
  | 0 => exact ⟨by decide, by decide, by decide, Or.inr ⟨by decide, by decide⟩⟩
  | 1 => exact ⟨by decide, by decide, by decide, Or.inr ⟨by decide, by decide⟩⟩
  | k + 2 =>
    have e : 2 ^ (k + 2) = 4 * 2 ^ k := by rw [Nat.pow_add]; omega
    have h1 : 0 < 2 ^ k := Nat.two_pow_pos k
    rw [e]
    have hm : max (4 * 2 ^ k) 4 = 4 * 2 ^ k := by omega
    rw [hm]
    exact ⟨by omega, by omega, ⟨_, rfl⟩, Or.inl ⟨⟨_, rfl⟩, rfl⟩⟩

theorem pad_spec {L C : Nat} (hL : LineOk L C) (st : St) (k : Nat) (hk : st.size ≤ k * C) (hC : (k + 1) * C ≤ 2 ^ 63) :
    (pad st).size % 4 = 0 ∧ st.size ≤ (pad st).size ∧ (pad st).size ≤ k * C ∧ (pad st).placed = st.placed ∧
      (pad st).numLines = st.numLines ∧ ∀ m, 4 ∣ m → st.size ≤ m → (pad st).size ≤ m := by
  have hround : ∀ m, 4 ∣ m → st.size ≤ m → st.size % 4 ≠ 0 → st.size + (4 - st.size % 4) ≤ m := by
    intro m ⟨d, hd⟩ h1 h2; omega
  have hkc : 4 ∣ k * C := Nat.dvd_trans hL.four (Nat.dvd_mul_left _ _)
  have h4 : 0 < C := Nat.lt_of_lt_of_le hL.pos hL.le
  rw [Nat.add_mul] at hC
  unfold pad
  split
  · rename_i h
    have hb := hround _ hkc hk h
    have hw : wrap (st.size + (4 - st.size % 4)) = st.size + (4 - st.size % 4) := wrap_le (by omega)
    dsimp only
    rw [hw]
    exact ⟨by omega, by omega, hb, rfl, rfl, fun m h1 h2 => hround m h1 h2 h⟩
  · exact ⟨by omega, Nat.le_refl _, hk, rfl, rfl, fun m _ h => h⟩

theorem root_arith {L C k sz s : Nat} (hL : LineOk L C) (h4 : s % 4 = 0) (hk : s ≤ k * C) (hs : 0 < sz) (hsz : sz ≤ L) :
    (lineOf L s ≤ s ∧ s < lineOf L s + L) ∧
    (lineOf L s = lineOf L (s + sz - 1) → s / L = (s + sz - 1) / L ∧ s + sz ≤ lineOf L s + L) ∧
    (lineOf L s ≠ lineOf L (s + sz - 1) → lineOf L s < lineOf L (s + sz - 1) ∧ 4 ∣ L ∧ (lineOf L s + L) % 4 = 0 ∧
      (lineOf L s + L) % L = 0 ∧ (lineOf L s + L) / L = (lineOf L s + L + sz - 1) / L ∧ s < lineOf L s + L ∧ 
      (∀ m, s ≤ m * L → lineOf L s + L ≤ m * L)) ∧ s + sz ≤ (k + 1) * C := by
  have e := Nat.div_add_mod s L
  have hr := Nat.mod_lt s hL.pos
  have hlo : lineOf L s + s % L = s := by unfold lineOf; rw [Nat.mul_comm]; exact e
  have hin : lineOf L s ≤ s ∧ s < lineOf L s + L := by omega
  refine ⟨hin, ?_, ?_, ?_⟩
  · intro h
    have hq : s / L = (s + sz - 1) / L := Nat.eq_of_mul_eq_mul_right hL.pos h
    refine ⟨hq, ?_⟩
    have e2 := Nat.div_add_mod (s + sz - 1) L
    have hr2 := Nat.mod_lt (s + sz - 1) hL.pos
    rw [← hq, Nat.mul_comm] at e2
    have : lineOf L s = s / L * L := rfl
    omega
  · intro h
    have hne : ¬ (s + sz - 1 < lineOf L s + L) := by
      intro hlt
      apply h
      unfold lineOf
      rw [div_of (x := s + sz - 1) (q := s / L) (by have : lineOf L s = s / L * L := rfl; omega)
        (by have : lineOf L s = s / L * L := rfl; omega)]
    have hq1 : (s + sz - 1) / L = s / L + 1 := div_of
      (by have : lineOf L s = s / L * L := rfl; rw [Nat.add_mul]; omega)
      (by have : lineOf L s = s / L * L := rfl; rw [Nat.add_mul]; omega)
    have hlt : lineOf L s < lineOf L (s + sz - 1) := by
      have : lineOf L (s + sz - 1) = lineOf L s + L := by
        unfold lineOf; rw [hq1, Nat.add_mul, Nat.one_mul]
      have := hL.pos; omega
    have hd4 : 4 ∣ L := by
      rcases hL.cases with ⟨h, _⟩ | ⟨h, _⟩
      · exact h
      · exfalso
        obtain ⟨d, hd⟩ := h
        have hm : s % L = 0 := by
          obtain ⟨u, hu⟩ : 4 ∣ s := Nat.dvd_of_mod_eq_zero h4
          exact Nat.mod_eq_zero_of_dvd ⟨d * u, by rw [hu, ← Nat.mul_assoc, ← hd]⟩
        omega
    have hb : lineOf L s + L = (s / L + 1) * L := by unfold lineOf; rw [Nat.add_mul, Nat.one_mul]
    refine ⟨hlt, hd4, ?_, ?_, ?_, hin.2, ?_⟩
    · rw [hb]
      exact Nat.mod_eq_zero_of_dvd (Nat.dvd_trans hd4 (Nat.dvd_mul_left _ _))
    · rw [hb]; exact Nat.mul_mod_left _ _
    · rw [hb, Nat.mul_div_cancel _ hL.pos]
      symm
      apply div_of <;> omega
    · intro m hm
      rw [hb]
      apply Nat.mul_le_mul_right
      have hml : s / L ≤ m := by
        have := Nat.div_le_div_right (c := L) hm
        rwa [Nat.mul_div_cancel _ hL.pos] at this
      rcases Nat.lt_or_ge (s / L) m with h' | h'
      · exact h'
      · exfalso
        have : m = s / L := by omega
        subst this
        have : lineOf L s = s / L * L := rfl
        omega
  · rw [Nat.add_mul]; have := hL.le; omega

theorem placeRoot_spec {L C : Nat} (hL : LineOk L C) (st : St) (i sz k : Nat) (hk : st.size ≤ k * C)
    (hC : (k + 1) * C ≤ 2 ^ 62) (hs : 0 < sz) (hsz : sz ≤ L) :
    (placeRoot L st i sz = .threw ∨ ∃ st', placeRoot L st i sz = .ok st' ∧ ∃ off, st'.placed = upd st.placed i (some off) ∧
      st.size ≤ off ∧ off % 4 = 0 ∧ off / L = (off + sz - 1) / L ∧ st'.size = off + sz ∧ st'.size ≤ (k + 1) * C ∧
      ((4 ∣ L → st.size ≤ st.numLines * L) → 4 ∣ L → st'.size ≤ st'.numLines * L)) ∧
    ((4 ∣ L → st.size ≤ st.numLines * L) → placeRoot L st i sz ≠ .threw) := by
  obtain ⟨p1, p2, p3, p4, p5, p6⟩ := pad_spec hL st k hk (by omega)
  obtain ⟨⟨a1, a1'⟩, a2, a3, a4⟩ := root_arith hL p1 p3 hs hsz
  have hlc := hL.le
  have hkC : k * C + C ≤ 2 ^ 62 := by rw [Nat.add_mul, Nat.one_mul] at hC; exact hC
  have hw1 : wrap ((pad st).size + sz - 1) = (pad st).size + sz - 1 := wrap_le (by omega)
  have hw2 : wrap ((pad st).size + sz) = (pad st).size + sz := wrap_le (by omega)
  have hw3 : wrap (lineOf L (pad st).size + L) = lineOf L (pad st).size + L := wrap_le (by omega)
  have hw4 : wrap (lineOf L (pad st).size + L + sz) = lineOf L (pad st).size + L + sz := wrap_le (by omega)
  have hkk : k * C + C = (k + 1) * C := by rw [Nat.add_mul, Nat.one_mul]
  unfold placeRoot
  dsimp only
  rw [hw1, hw3]
  generalize pad st = q at *
  by_cases h1 : lineOf L q.size ≠ lineOf L (q.size + sz - 1)
  · obtain ⟨b1, b2, b3, b4, b5, b6, b7⟩ := a3 h1
    simp only [if_pos h1, if_pos b1, if_pos b3, hw4]
    have hCL : C = L := by
      rcases hL.cases with ⟨_, h⟩ | ⟨⟨d, hd⟩, h⟩
      · exact h
      · obtain ⟨e, he⟩ := b2
        rcases Nat.eq_zero_or_pos d with hd0 | hd0
        · subst hd0; omega
        · have : L ≤ 4 := by rw [hd]; exact Nat.le_mul_of_pos_right L hd0
          have := hL.pos
          omega
    refine ⟨Or.inr ⟨_, rfl, _, by rw [p4], ?_, b3, b5, rfl, ?_, ?_⟩, fun _ h => (by cases h)⟩
    · omega
    · have := b7 k (by rw [← hCL]; exact p3)
      rw [← hkk, hCL]
      dsimp only
      omega
    · intro hn h4
      have := b7 st.numLines (p6 _ (Nat.dvd_trans h4 (Nat.dvd_mul_left _ _)) (hn h4))
      dsimp only
      rw [p5, Nat.add_mul]
      omega
  · simp only [if_neg h1]
    have h1' : lineOf L q.size = lineOf L (q.size + sz - 1) := by
      exact Decidable.of_not_not h1
    obtain ⟨b1, b2⟩ := a2 h1'
    by_cases h2 : q.numLines * L ≤ lineOf L q.size
    · simp only [if_pos h2]
      by_cases h3 : q.size % L = 0
      · simp only [if_pos h3, if_pos p1, hw2]
        refine ⟨Or.inr ⟨_, rfl, _, by rw [p4], p2, p1, b1, rfl, a4, ?_⟩, fun _ h => (by cases h)⟩
        intro hn h4
        have := p6 _ (Nat.dvd_trans h4 (Nat.dvd_mul_left _ _)) (hn h4)
        dsimp only
        rw [p5, Nat.add_mul]
        omega
      · simp only [if_neg h3]
        refine ⟨Or.inl trivial, ?_⟩
        intro hn _
        apply h3
        rcases hL.cases with ⟨h4, _⟩ | ⟨⟨d, hd⟩, _⟩
        · have := p6 _ (Nat.dvd_trans h4 (Nat.dvd_mul_left _ _)) (hn h4)
          rw [p5] at h2
          have : q.size = st.numLines * L := by omega
          rw [this]
          exact Nat.mul_mod_left _ _
        · obtain ⟨u, hu⟩ : 4 ∣ q.size := Nat.dvd_of_mod_eq_zero p1
          exact Nat.mod_eq_zero_of_dvd ⟨d * u, by rw [hu, ← Nat.mul_assoc, ← hd]⟩
    · simp only [if_neg h2, if_pos p1, hw2]
      refine ⟨Or.inr ⟨_, rfl, _, by rw [p4], p2, p1, b1, rfl, a4, ?_⟩, fun _ h => (by cases h)⟩
      intro hn h4
      dsimp only
      have hlt : q.size / L < q.numLines := by
        have : q.size / L * L < q.numLines * L := by unfold lineOf at h2; omega
        exact Nat.lt_of_mul_lt_mul_right this
      have : (q.size / L + 1) * L ≤ q.numLines * L := Nat.mul_le_mul_right _ hlt
      rw [Nat.add_mul, Nat.one_mul] at this
      have e : lineOf L q.size = q.size / L * L := rfl
      omega

/-- a placed segment: where it lies and what it is relative to -/
def PlacedOk (L : Nat) (segs : List Seg) (st : St) (i off : Nat) : Prop :=
  ∃ s, segs[i]? = some s ∧ off + s.size ≤ st.size ∧ off / L = (off + s.size - 1) / L ∧
    match s.subsetOf with
    | none => off % 4 = 0
    | some p => ∃ j ps po, segs[j]? = some ps ∧ ps.id = some p ∧ st.placed j = some po ∧ off = po + s.subsetOff ∧
        s.subsetOff + s.size ≤ ps.size

structure Inv (L C : Nat) (segs : List Seg) (st : St) : Prop where
  size : st.size ≤ cnt st.placed segs.length * C
  placed : ∀ i off, st.placed i = some off → PlacedOk L segs st i off
  disj : ∀ i j oi oj si sj, i ≠ j → st.placed i = some oi → st.placed j = some oj → segs[i]? = some si →
    segs[j]? = some sj → si.subsetOf = none → sj.subsetOf = none → oi + si.size ≤ oj ∨ oj + sj.size ≤ oi
  lines : 4 ∣ L → st.size ≤ st.numLines * L

structure SegsOk (L : Nat) (segs : List Seg) : Prop where
  size : ∀ s ∈ segs, 0 < s.size ∧ s.size ≤ L
  off : ∀ s ∈ segs, s.subsetOff < 2 ^ 62

theorem lookupId_some {segs : List Seg} {id j : Nat} (h : lookupId segs id = some j) :
    ∃ ps, segs[j]? = some ps ∧ ps.id = some id := by
  unfold lookupId at h
  rw [List.findIdx?_eq_some_iff_getElem] at h
  obtain ⟨hj, h1, _⟩ := h
  exact ⟨segs[j], by rw [List.getElem?_eq_getElem hj], by simpa using h1⟩

theorem place_spec {L C : Nat} (hL : LineOk L C) {segs : List Seg} (hS : SegsOk L segs)
    (hC : segs.length * C ≤ 2 ^ 62) : ∀ (fuel : Nat) (st : St) (i : Nat), Inv L C segs st →
    ∀ st', place L segs fuel st i = .ok st' →
      Inv L C segs st' ∧ (st'.placed i).isSome ∧ (∀ j, (st.placed j).isSome → st'.placed j = st.placed j) := by
  intro fuel
  induction fuel with
  | zero => intro st i _ st' h; cases h
  | succ fuel ih =>
    intro st i hi st' h
    unfold place at h
    rcases Option.eq_none_or_eq_some (st.placed i) with hp | ⟨off, hp⟩
    · rw [hp] at h
      dsimp only at h
      rcases Option.eq_none_or_eq_some (segs[i]?) with hs | ⟨s, hs⟩
      · rw [hs] at h; cases h
      · rw [hs] at h
        dsimp only at h
        have hmem : s ∈ segs := List.mem_of_getElem? hs
        have hil : i < segs.length := (List.getElem?_eq_some_iff.1 hs).1
        obtain ⟨z1, z2⟩ := hS.size s hmem
        have hoff := hS.off s hmem
        have hcnt := cnt_lt st.placed i segs.length hil hp
        rcases Option.eq_none_or_eq_some s.subsetOf with hsub | ⟨p, hsub⟩
        · rw [hsub] at h
          dsimp only at h
          have hb : (cnt st.placed segs.length + 1) * C ≤ 2 ^ 62 :=
            Nat.le_trans (Nat.mul_le_mul_right _ hcnt) hC
          obtain ⟨hr | ⟨st2, hr, off, e1, e2, e3, e4, e5, e6, e7⟩, _⟩ :=
            placeRoot_spec hL st i s.size _ hi.size hb z1 z2
          · rw [hr] at h; cases h
          · rw [hr] at h
            injection h with h
            subst st2
            have hother : ∀ j, j ≠ i → st'.placed j = st.placed j := fun j hj => by rw [e1]; exact upd_other _ _ hj
            have hself : st'.placed i = some off := by rw [e1]; simp [upd]
            have hkeep : ∀ j, (st.placed j).isSome → st'.placed j = st.placed j := by
              intro j hj
              apply hother
              intro e
              rw [e, hp] at hj
              cases hj
            refine ⟨⟨?_, ?_, ?_, e7 hi.lines⟩, by rw [hself]; rfl, hkeep⟩
            · rw [e1, cnt_upd _ _ _ _ hil hp]; exact e6
            · intro j oj hj
              by_cases hji : j = i
              · subst hji
                rw [hself] at hj
                cases hj
                exact ⟨s, hs, by omega, e4, by rw [hsub]; exact e3⟩
              · rw [hother j hji] at hj
                obtain ⟨t, t1, t2, t3, t4⟩ := hi.placed j oj hj
                refine ⟨t, t1, by omega, t3, ?_⟩
                rcases Option.eq_none_or_eq_some t.subsetOf with ht | ⟨pp, ht⟩
                · rw [ht] at t4 ⊢; exact t4
                · rw [ht] at t4 ⊢
                  obtain ⟨k, ps, po, u1, u2, u3, u4⟩ := t4
                  exact ⟨k, ps, po, u1, u2, by rw [hkeep k (by rw [u3]; rfl)]; exact u3, u4⟩
            · have key : ∀ j oj sj, j ≠ i → st'.placed j = some oj → segs[j]? = some sj → oj + sj.size ≤ off := by
                intro j oj sj hji hj hsj
                rw [hother j hji] at hj
                obtain ⟨t, t1, t2, _⟩ := hi.placed j oj hj
                rw [hsj] at t1
                cases t1
                omega
              intro a b oa ob sa sb hab ha hb hsa hsb ra rb
              by_cases hai : a = i
              · subst hai
                rw [hself] at ha
                cases ha
                exact Or.inr (key b ob sb (fun e => hab e.symm) hb hsb)
              · by_cases hbi : b = i
                · subst hbi
                  rw [hself] at hb
                  cases hb
                  exact Or.inl (key a oa sa hai ha hsa)
                · rw [hother a hai] at ha
                  rw [hother b hbi] at hb
                  exact hi.disj a b oa ob sa sb hab ha hb hsa hsb ra rb
        · rw [hsub] at h
          dsimp only at h
          rcases Option.eq_none_or_eq_some (lookupId segs p) with hl | ⟨j, hl⟩
          · rw [hl] at h; cases h
          · rw [hl] at h
            dsimp only at h
            obtain ⟨ps, hps, hpid⟩ := lookupId_some hl
            generalize hpl : place L segs fuel st j = r at h
            cases r with
            | threw => cases h
            | loops => cases h
            | ok st1 =>
              dsimp only at h
              obtain ⟨i1, i2, i3⟩ := ih st j hi st1 hpl
              obtain ⟨po, hpo⟩ := Option.isSome_iff_exists.1 i2
              rw [hps, hpo] at h
              dsimp only at h
              obtain ⟨t, t1, t2, t3, _⟩ := i1.placed j po hpo
              rw [hps] at t1
              cases t1
              have hsz1 : st1.size ≤ 2 ^ 62 := Nat.le_trans i1.size
                (Nat.le_trans (Nat.mul_le_mul_right _ (cnt_le _ _)) hC)
              obtain ⟨z3, z4⟩ := hS.size ps (List.mem_of_getElem? hps)
              have hCl : L ≤ 2 ^ 62 := Nat.le_trans hL.le (Nat.le_trans (Nat.le_mul_of_pos_left C (by omega)) hC)
              rw [wrap_le (k := s.size + s.subsetOff) (by omega), wrap_le (k := po + s.subsetOff) (by omega)] at h
              split at h
              · cases h
              · rename_i hfit
                split at h
                · cases h
                · rename_i hpi
                  have hpi : st1.placed i = none := by simpa using hpi
                  cases h
                  have hother : ∀ k, k ≠ i → upd st1.placed i (some (po + s.subsetOff)) k = st1.placed k :=
                    fun k hk => upd_other _ _ hk
                  have hself : upd st1.placed i (some (po + s.subsetOff)) i = some (po + s.subsetOff) := by simp [upd]
                  have hkeep : ∀ k, (st1.placed k).isSome → upd st1.placed i (some (po + s.subsetOff)) k = st1.placed k := by
                    intro k hk
                    apply hother
                    intro e
                    rw [e, hpi] at hk
                    cases hk
                  refine ⟨⟨?_, ?_, ?_, i1.lines⟩, by dsimp only; rw [hself]; rfl, ?_⟩
                  · dsimp only
                    rw [cnt_upd _ _ _ _ hil hpi, Nat.add_mul]
                    exact Nat.le_trans i1.size (Nat.le_add_right _ _)
                  · intro k ok hk
                    dsimp only at hk
                    by_cases hki : k = i
                    · subst hki
                      rw [hself] at hk
                      cases hk
                      refine ⟨s, hs, by show po + s.subsetOff + s.size ≤ st1.size; omega, ?_, ?_⟩
                      · have hlo : po / L * L ≤ po := Nat.div_mul_le_self po L
                        have hmod := Nat.div_add_mod (po + ps.size - 1) L
                        have hml := Nat.mod_lt (po + ps.size - 1) hL.pos
                        rw [← t3, Nat.mul_comm] at hmod
                        have e1 : (po + s.subsetOff) / L = po / L := div_of (by omega) (by omega)
                        have e2 : (po + s.subsetOff + s.size - 1) / L = po / L := div_of (by omega) (by omega)
                        rw [e1, e2]
                      · rw [hsub]
                        exact ⟨j, ps, po, hps, hpid, (hkeep j i2).trans hpo, rfl, by omega⟩
                    · rw [hother k hki] at hk
                      obtain ⟨t, t1, t2, t3, t4⟩ := i1.placed k ok hk
                      refine ⟨t, t1, t2, t3, ?_⟩
                      rcases Option.eq_none_or_eq_some t.subsetOf with ht | ⟨pp, ht⟩
                      · rw [ht] at t4 ⊢; exact t4
                      · rw [ht] at t4 ⊢
                        obtain ⟨k, ps, po, u1, u2, u3, u4⟩ := t4
                        exact ⟨k, ps, po, u1, u2, by dsimp only; rw [hkeep k (by rw [u3]; rfl)]; exact u3, u4⟩
                  · intro a b oa ob sa sb hab ha hb hsa hsb ra rb
                    dsimp only at ha hb
                    have hai : a ≠ i := by
                      intro e; rw [e, hs] at hsa; cases hsa; rw [hsub] at ra; cases ra
                    have hbi : b ≠ i := by
                      intro e; rw [e, hs] at hsb; cases hsb; rw [hsub] at rb; cases rb
                    rw [hother a hai] at ha
                    rw [hother b hbi] at hb
                    exact i1.disj a b oa ob sa sb hab ha hb hsa hsb ra rb
                  · intro k hk
                    dsimp only
                    have := i3 k hk
                    rw [hkeep k (by rw [this]; exact hk), this]
    · rw [hp] at h
      cases h
      exact ⟨hi, by rw [hp]; rfl, fun _ _ => rfl⟩

theorem inv_init (L C : Nat) (segs : List Seg) : Inv L C segs St.init :=
  ⟨Nat.zero_le _, fun _ _ h => (by cases h), fun _ _ _ _ _ _ _ h => (by cases h), fun _ => Nat.zero_le _⟩

theorem placeAll_spec {L C : Nat} (hL : LineOk L C) {segs : List Seg} (hS : SegsOk L segs)
    (hC : segs.length * C ≤ 2 ^ 62) : ∀ (is : List Nat) (st : St), Inv L C segs st →
    ∀ st', placeAll L segs st is = .ok st' →
      Inv L C segs st' ∧ (∀ i ∈ is, (st'.placed i).isSome) ∧ (∀ j, (st.placed j).isSome → st'.placed j = st.placed j) := by
  intro is
  induction is with
  | nil => intro st hi st' h; cases h; exact ⟨hi, fun i h => (by cases h), fun _ _ => rfl⟩
  | cons i is ih =>
    intro st hi st' h
    unfold placeAll at h
    generalize hr : place L segs (segs.length + 1) st i = r at h
    cases r with
    | threw => cases h
    | loops => cases h
    | ok st1 =>
      dsimp only at h
      obtain ⟨a1, a2, a3⟩ := place_spec hL hS hC _ st i hi st1 hr
      obtain ⟨b1, b2, b3⟩ := ih st1 a1 st' h
      refine ⟨b1, ?_, ?_⟩
      · intro k hk
        rcases List.mem_cons.1 hk with e | hk
        · subst e; rw [b3 k a2]; exact a2
        · exact b2 k hk
      · intro j hj
        have := a3 j hj
        rw [b3 j (by rw [this]; exact hj), this]

/-- every subset names a registered segment, fits in it, and following parents ends (`rank` decreases) -/
def WellNested (segs : List Seg) (rank : Nat → Nat) : Prop :=
  (∀ i, rank i ≤ segs.length) ∧
  ∀ i s p, segs[i]? = some s → s.subsetOf = some p →
    (∃ t ∈ segs, t.id = some p) ∧
    ∀ j t, segs[j]? = some t → t.id = some p → s.subsetOff + s.size ≤ t.size ∧ rank j < rank i

theorem place_ok {L C : Nat} (hL : LineOk L C) {segs : List Seg} (hS : SegsOk L segs)
    (hC : segs.length * C ≤ 2 ^ 62) {rank : Nat → Nat} (hN : WellNested segs rank) :
    ∀ (fuel : Nat) (st : St) (i : Nat), Inv L C segs st → i < segs.length → rank i < fuel →
    ∃ st', place L segs fuel st i = .ok st' ∧ ∀ k, rank i < rank k → st'.placed k = st.placed k := by
  intro fuel
  induction fuel with
  | zero => intro st i _ _ h; omega
  | succ fuel ih =>
    intro st i hi hil hf
    unfold place
    rcases Option.eq_none_or_eq_some (st.placed i) with hp | ⟨off, hp⟩
    · rw [hp]
      dsimp only
      have hs : segs[i]? = some segs[i] := List.getElem?_eq_getElem hil
      generalize segs[i] = s at hs
      rw [hs]
      dsimp only
      have hmem : s ∈ segs := List.mem_of_getElem? hs
      obtain ⟨z1, z2⟩ := hS.size s hmem
      have hoff := hS.off s hmem
      have hcnt := cnt_lt st.placed i segs.length hil hp
      rcases Option.eq_none_or_eq_some s.subsetOf with hsub | ⟨p, hsub⟩
      · rw [hsub]
        dsimp only
        have hb : (cnt st.placed segs.length + 1) * C ≤ 2 ^ 62 :=
          Nat.le_trans (Nat.mul_le_mul_right _ hcnt) hC
        obtain ⟨hr | ⟨st2, hr, off, e1, _⟩, hno⟩ := placeRoot_spec hL st i s.size _ hi.size hb z1 z2
        · exact absurd hr (hno hi.lines)
        · refine ⟨st2, hr, ?_⟩
          intro k hk
          rw [e1]
          exact upd_other _ _ (fun e => by rw [e] at hk; omega)
      · rw [hsub]
        dsimp only
        obtain ⟨⟨t, ht, htid⟩, hpar⟩ := hN.2 i s p hs hsub
        have hl : ∃ j, lookupId segs p = some j := by
          rcases Option.eq_none_or_eq_some (lookupId segs p) with hl | h
          · exfalso
            unfold lookupId at hl
            rw [List.findIdx?_eq_none_iff] at hl
            have := hl t ht
            rw [htid] at this
            simp at this
          · exact h
        obtain ⟨j, hl⟩ := hl
        rw [hl]
        dsimp only
        obtain ⟨ps, hps, hpid⟩ := lookupId_some hl
        obtain ⟨hfit, hrk⟩ := hpar j ps hps hpid
        obtain ⟨st1, h1, h2⟩ := ih st j hi (List.getElem?_eq_some_iff.1 hps).1 (by omega)
        rw [h1]
        dsimp only
        obtain ⟨i1, i2, i3⟩ := place_spec hL hS hC fuel st j hi st1 h1
        obtain ⟨po, hpo⟩ := Option.isSome_iff_exists.1 i2
        rw [hps, hpo]
        dsimp only
        have hCl : L ≤ 2 ^ 62 := Nat.le_trans hL.le (Nat.le_trans (Nat.le_mul_of_pos_left C (by omega)) hC)
        have hpi : st1.placed i = none := by rw [h2 i hrk]; exact hp
        have hw : wrap (s.size + s.subsetOff) = s.size + s.subsetOff := wrap_le (by omega)
        rw [hw]
        simp only [hpi]
        rw [if_neg (show ¬ s.size + s.subsetOff > ps.size by omega)]
        refine ⟨_, rfl, ?_⟩
        intro k hk
        show upd st1.placed i _ k = _
        rw [upd_other _ _ (fun e => by rw [e] at hk; omega)]
        exact h2 k (by omega)
    · rw [hp]
      exact ⟨st, rfl, fun _ _ => rfl⟩

theorem placeAll_ok {L C : Nat} (hL : LineOk L C) {segs : List Seg} (hS : SegsOk L segs)
    (hC : segs.length * C ≤ 2 ^ 62) {rank : Nat → Nat} (hN : WellNested segs rank) :
    ∀ (is : List Nat) (st : St), Inv L C segs st → (∀ i ∈ is, i < segs.length) → ∃ st', placeAll L segs st is = .ok st' := by
  intro is
  induction is with
  | nil => intro st _ _; exact ⟨st, rfl⟩
  | cons i is ih =>
    intro st hi hb
    have hil := hb i (List.mem_cons_self ..)
    obtain ⟨st1, h1, _⟩ := place_ok hL hS hC hN (segs.length + 1) st i hi hil (Nat.lt_succ_of_le (hN.1 i))
    unfold placeAll
    rw [h1]
    exact ih st1 (place_spec hL hS hC _ st i hi st1 h1).1 (fun j hj => hb j (List.mem_cons_of_mem _ hj))

theorem registerAll_spec (L : Nat) : ∀ (ss segs out : List Seg), registerAll L segs ss = some out →
    out = segs ++ ss ∧ ∀ s ∈ ss, 0 < s.size ∧ s.size ≤ L := by
  intro ss
  induction ss with
  | nil => intro segs out h; cases h; exact ⟨by simp, fun s h => (by cases h)⟩
  | cons s ss ih =>
    intro segs out h
    unfold registerAll register at h
    by_cases hc : canRegister L segs s = true
    · simp only [hc, if_true] at h
      obtain ⟨h1, h2⟩ := ih _ _ h
      refine ⟨by rw [h1]; simp, ?_⟩
      intro t ht
      rcases List.mem_cons.1 ht with e | ht
      · subst e
        unfold canRegister at hc
        simp only [Bool.and_eq_true, bne_iff_ne, decide_eq_true_eq] at hc
        exact ⟨Nat.pos_of_ne_zero hc.1.1.2, hc.1.2⟩
      · exact h2 t ht
    · simp only [if_neg hc] at h
      cases h

/-! ### accounting of wasted space -/

/-- bytes of the placed independent segments among the first `n` -/
def used (segs : List Seg) (pl : Nat → Option Nat) : Nat → Nat
  | 0 => 0
  | n + 1 => used segs pl n + match segs[n]? with
    | some s => if s.subsetOf = none ∧ (pl n).isSome then s.size else 0
    | none => 0

theorem used_upd_ge (segs : List Seg) (pl : Nat → Option Nat) (i x n : Nat) (h : n ≤ i) :
    used segs (upd pl i (some x)) n = used segs pl n := by
  induction n with
  | zero => rfl
  | succ n ih =>
    unfold used
    rw [ih (by omega), upd_other _ _ (by omega)]

theorem used_upd (segs : List Seg) (pl : Nat → Option Nat) (i x n : Nat) (s : Seg) (h : i < n) (hn : pl i = none)
    (hs : segs[i]? = some s) :
    used segs (upd pl i (some x)) n = used segs pl n + if s.subsetOf = none then s.size else 0 := by
  induction n with
  | zero => omega
  | succ n ih =>
    unfold used
    by_cases e : n = i
    · subst e
      rw [used_upd_ge _ _ _ _ _ (Nat.le_refl _), hn, hs]
      simp [upd]
    · rw [ih (by omega), upd_other _ _ e]
      omega

theorem used_all (segs : List Seg) (pl : Nat → Option Nat) : ∀ n, n ≤ segs.length → (∀ i, i < n → (pl i).isSome) →
    used segs pl n = ((segs.take n).filterMap fun s => if s.subsetOf = none then some s.size else none).sum := by
  intro n
  induction n with
  | zero => intro _ _; rfl
  | succ n ih =>
    intro hn hp
    have e : segs.take (n + 1) = segs.take n ++ [segs[n]] := by
      rw [List.take_succ, List.getElem?_eq_getElem (by omega : n < segs.length)]; rfl
    unfold used
    rw [ih (by omega) (fun i hi => hp i (by omega)), List.getElem?_eq_getElem (by omega : n < segs.length), e,
      List.filterMap_append, List.sum_append]
    congr 1
    simp only [hp n (by omega), and_true, List.filterMap_cons, List.filterMap_nil]
    by_cases hc : segs[n].subsetOf = none <;> simp [hc]

def Acct (segs : List Seg) (st : St) : Prop :=
  st.size = used segs st.placed segs.length + st.padWaste + st.lineWaste

theorem placeRoot_acct {L C : Nat} (hL : LineOk L C) (st : St) (i sz k : Nat) (hk : st.size ≤ k * C)
    (hC : (k + 1) * C ≤ 2 ^ 62) (hs : 0 < sz) (hsz : sz ≤ L) {st' : St} (h : placeRoot L st i sz = .ok st') :
    ∃ w off, st'.placed = upd st.placed i (some off) ∧ st'.size = st.size + w + sz ∧
      st'.padWaste + st'.lineWaste = st.padWaste + st.lineWaste + w := by
  obtain ⟨p1, p2, p3, p4, p5, p6⟩ := pad_spec hL st k hk (by omega)
  obtain ⟨⟨a1, a1'⟩, a2, a3, a4⟩ := root_arith hL p1 p3 hs hsz
  have hlc := hL.le
  have hkC : k * C + C ≤ 2 ^ 62 := by rw [Nat.add_mul, Nat.one_mul] at hC; exact hC
  have hpw : (pad st).padWaste = st.padWaste + ((pad st).size - st.size) ∧ (pad st).lineWaste = st.lineWaste := by
    unfold pad at p2 p3 ⊢
    split
    · rename_i hc
      rw [if_pos hc] at p2 p3
      dsimp only at p2 p3 ⊢
      have hw : wrap (st.size + (4 - st.size % 4)) = st.size + (4 - st.size % 4) := by
        apply wrap_le
        have := hL.four
        have hkd : 4 ∣ k * C := Nat.dvd_trans hL.four (Nat.dvd_mul_left _ _)
        obtain ⟨d, hd⟩ := hkd
        omega
      rw [hw]
      exact ⟨by omega, rfl⟩
    · exact ⟨by omega, rfl⟩
  have hw1 : wrap ((pad st).size + sz - 1) = (pad st).size + sz - 1 := wrap_le (by omega)
  have hw2 : wrap ((pad st).size + sz) = (pad st).size + sz := wrap_le (by omega)
  have hw3 : wrap (lineOf L (pad st).size + L) = lineOf L (pad st).size + L := wrap_le (by omega)
  have hw4 : wrap (lineOf L (pad st).size + L + sz) = lineOf L (pad st).size + L + sz := wrap_le (by omega)
  unfold placeRoot at h
  dsimp only at h
  rw [hw1, hw3] at h
  generalize pad st = q at *
  obtain ⟨w1, w2⟩ := hpw
  by_cases h1 : lineOf L q.size ≠ lineOf L (q.size + sz - 1)
  · obtain ⟨b1, b2, b3, b4, b5, b6, b7⟩ := a3 h1
    simp only [if_pos h1, if_pos b1, if_pos b3, hw4] at h
    cases h
    refine ⟨lineOf L q.size + L - st.size, _, by rw [p4], ?_, ?_⟩
    · dsimp only; omega
    · dsimp only; omega
  · simp only [if_neg h1] at h
    by_cases h2 : q.numLines * L ≤ lineOf L q.size
    · simp only [if_pos h2] at h
      by_cases h3 : q.size % L = 0
      · simp only [if_pos h3, if_pos p1, hw2] at h
        cases h
        refine ⟨q.size - st.size, _, by rw [p4], ?_, ?_⟩
        · dsimp only; omega
        · dsimp only; omega
      · simp only [if_neg h3] at h
        cases h
    · simp only [if_neg h2, if_pos p1, hw2] at h
      cases h
      refine ⟨q.size - st.size, _, by rw [p4], ?_, ?_⟩
      · dsimp only; omega
      · dsimp only; omega

theorem place_acct {L C : Nat} (hL : LineOk L C) {segs : List Seg} (hS : SegsOk L segs)
    (hC : segs.length * C ≤ 2 ^ 62) : ∀ (fuel : Nat) (st : St) (i : Nat), Inv L C segs st → Acct segs st →
    ∀ st', place L segs fuel st i = .ok st' → Acct segs st' := by
  intro fuel
  induction fuel with
  | zero => intro st i _ _ st' h; cases h
  | succ fuel ih =>
    intro st i hi ha st' h
    unfold place at h
    rcases Option.eq_none_or_eq_some (st.placed i) with hp | ⟨off, hp⟩
    · rw [hp] at h
      dsimp only at h
      rcases Option.eq_none_or_eq_some (segs[i]?) with hs | ⟨s, hs⟩
      · rw [hs] at h; cases h
      · rw [hs] at h
        dsimp only at h
        have hmem : s ∈ segs := List.mem_of_getElem? hs
        have hil : i < segs.length := (List.getElem?_eq_some_iff.1 hs).1
        obtain ⟨z1, z2⟩ := hS.size s hmem
        have hcnt := cnt_lt st.placed i segs.length hil hp
        rcases Option.eq_none_or_eq_some s.subsetOf with hsub | ⟨p, hsub⟩
        · rw [hsub] at h
          dsimp only at h
          have hb : (cnt st.placed segs.length + 1) * C ≤ 2 ^ 62 :=
            Nat.le_trans (Nat.mul_le_mul_right _ hcnt) hC
          obtain ⟨w, off, e1, e2, e3⟩ := placeRoot_acct hL st i s.size _ hi.size hb z1 z2 h
          unfold Acct at ha ⊢
          rw [e1, used_upd segs _ _ _ _ s hil hp hs, if_pos hsub]
          omega
        · rw [hsub] at h
          dsimp only at h
          rcases Option.eq_none_or_eq_some (lookupId segs p) with hl | ⟨j, hl⟩
          · rw [hl] at h; cases h
          · rw [hl] at h
            dsimp only at h
            generalize hpl : place L segs fuel st j = r at h
            cases r with
            | threw => cases h
            | loops => cases h
            | ok st1 =>
              dsimp only at h
              have i1 := ih st j hi ha st1 hpl
              split at h
              · split at h
                · cases h
                · split at h
                  · cases h
                  · rename_i hpi
                    have hpi : st1.placed i = none := by simpa using hpi
                    cases h
                    unfold Acct at i1 ⊢
                    dsimp only
                    rw [used_upd segs _ _ _ _ s hil hpi hs, if_neg (by rw [hsub]; intro h; cases h)]
                    omega
              · cases h
    · rw [hp] at h
      cases h
      exact ha

theorem placeAll_acct {L C : Nat} (hL : LineOk L C) {segs : List Seg} (hS : SegsOk L segs)
    (hC : segs.length * C ≤ 2 ^ 62) : ∀ (is : List Nat) (st : St), Inv L C segs st → Acct segs st →
    ∀ st', placeAll L segs st is = .ok st' → Acct segs st' := by
  intro is
  induction is with
  | nil => intro st _ ha st' h; cases h; exact ha
  | cons i is ih =>
    intro st hi ha st' h
    unfold placeAll at h
    generalize hr : place L segs (segs.length + 1) st i = r at h
    cases r with
    | threw => cases h
    | loops => cases h
    | ok st1 =>
      exact ih st1 (place_spec hL hS hC _ st i hi st1 hr).1 (place_acct hL hS hC _ st i hi ha st1 hr) st' h

theorem used_none (segs : List Seg) (n : Nat) : used segs (fun _ => none) n = 0 := by
  induction n with
  | zero => rfl
  | succ n ih => unfold used; rw [ih]; split <;> simp

end Sparta.ArchData.Layout
