import Verif.UniqEv.Spec
/-! # Invariants of unique events -/
namespace Sparta.UniqEv

/-- The queue and the ticks in which the event is to fire. -/
structure QOk (q : Q) (w : Nat → Bool) : Prop where
  nodup : q.waiting.Nodup
  sorted : q.log.Pairwise (· < ·)
  want : ∀ t, w t = true ↔ t ∈ q.waiting ∨ t ∈ q.log
  disj : ∀ t, t ∈ q.waiting → t ∉ q.log
  future : ∀ t ∈ q.waiting, q.now ≤ t
  past : ∀ t ∈ q.log, t ≤ q.now

theorem QOk.init : QOk {} (fun _ => false) where
  nodup := List.nodup_nil
  sorted := List.Pairwise.nil
  want := fun t => by simp
  disj := fun t h => by cases h
  future := fun t h => by cases h
  past := fun t h => by cases h

theorem QOk.advance {q : Q} {w : Nat → Bool} (h : QOk q w) (n : Nat) : QOk (q.advance n) w := by
  unfold Q.advance
  split
  · exact h
  · rename_i hn
    refine ⟨h.nodup, h.sorted, h.want, h.disj, fun t ht => ?_, fun t ht => ?_⟩
    · have h2 : ¬ t < q.now + n := fun hlt => hn (List.any_eq_true.mpr ⟨t, ht, decide_eq_true hlt⟩)
      show q.now + n ≤ t
      omega
    · have := h.past t ht
      show t ≤ q.now + n
      omega

theorem QOk.fire {q : Q} {w : Nat → Bool} (h : QOk q w) : QOk q.fire w := by
  unfold Q.fire
  split
  · rename_i hm
    have hlt : ∀ t ∈ q.log, t < q.now := fun t ht => by
      have h1 := h.past t ht
      have h2 : t ≠ q.now := fun e => h.disj _ hm (e ▸ ht)
      omega
    refine ⟨h.nodup.erase _, ?_, fun t => ?_, fun t ht => ?_, fun t ht => ?_, fun t ht => ?_⟩
    · refine List.pairwise_append.mpr ⟨h.sorted, List.pairwise_singleton _ _, fun a ha b hb => ?_⟩
      rw [List.mem_singleton.mp hb]; exact hlt a ha
    · rw [h.want]
      show _ ↔ t ∈ q.waiting.erase q.now ∨ t ∈ q.log ++ [q.now]
      rw [h.nodup.mem_erase_iff, List.mem_append, List.mem_singleton]
      by_cases ht : t = q.now
      · subst ht; simp [hm]
      · simp [ht]
    · have ht' : t ∈ q.waiting.erase q.now := ht
      rw [h.nodup.mem_erase_iff] at ht'
      show t ∉ q.log ++ [q.now]
      rw [List.mem_append, List.mem_singleton]
      exact fun k => k.elim (h.disj t ht'.2) ht'.1
    · exact h.future t (List.mem_of_mem_erase ht)
    · rcases List.mem_append.mp ht with k | k
      · exact h.past t k
      · rw [List.mem_singleton.mp k]; exact Nat.le_refl _
  · exact h

theorem QOk.add {q : Q} {w : Nat → Bool} (h : QOk q w) {t : Nat} (hw : w t = false) (ht : q.now ≤ t) :
    QOk (q.add t) (upd w t true) := by
  have hn : t ∉ q.waiting ∧ t ∉ q.log := by
    have := (h.want t).mpr
    rw [hw] at this
    exact ⟨fun k => (by cases this (Or.inl k)), fun k => (by cases this (Or.inr k))⟩
  refine ⟨?_, h.sorted, fun t' => ?_, fun t' ht' => ?_, fun t' ht' => ?_, h.past⟩
  · refine List.nodup_append.mpr ⟨h.nodup, by simp, fun a ha b hb e => ?_⟩
    rw [List.mem_singleton.mp hb] at e
    exact hn.1 (e ▸ ha)
  · show upd w t true t' = true ↔ t' ∈ q.waiting ++ [t] ∨ t' ∈ q.log
    by_cases e : t' = t
    · subst e; rw [upd_same]; simp
    · rw [upd_other _ _ e, h.want, List.mem_append, List.mem_singleton]; simp [e]
  · rcases List.mem_append.mp ht' with k | k
    · exact h.disj t' k
    · rw [List.mem_singleton.mp k]; exact hn.2
  · rcases List.mem_append.mp ht' with k | k
    · exact h.future t' k
    · rw [List.mem_singleton.mp k]; exact ht

theorem upd_true {w : Nat → Bool} {t : Nat} (h : w t = true) : upd w t true = w := by
  funext t'
  by_cases e : t' = t
  · subst e; rw [upd_same, h]
  · exact upd_other _ _ e

theorem QOk.cancel {q : Q} {w : Nat → Bool} (h : QOk q w) :
    QOk q.cancel (fun t => w t && q.log.contains t) := by
  refine ⟨List.nodup_nil, h.sorted, fun t => ?_, fun t ht => (by cases ht), fun t ht => (by cases ht), h.past⟩
  show (w t && q.log.contains t) = true ↔ t ∈ [] ∨ t ∈ q.log
  rw [Bool.and_eq_true, h.want, List.contains_iff_mem]
  simp only [List.not_mem_nil, false_or]
  exact ⟨fun k => k.2, fun k => ⟨Or.inr k, k⟩⟩

theorem QOk.cancelAt {q : Q} {w : Nat → Bool} (h : QOk q w) (t : Nat) :
    QOk (q.cancelAt t) (upd w t (w t && q.log.contains t)) := by
  refine ⟨List.Sublist.nodup List.filter_sublist h.nodup, h.sorted, fun t' => ?_, fun t' ht => ?_, fun t' ht => ?_, h.past⟩
  · show upd w t (w t && q.log.contains t) t' = true ↔ t' ∈ q.waiting.filter (· ≠ t) ∨ t' ∈ q.log
    by_cases e : t' = t
    · subst e
      rw [upd_same, Bool.and_eq_true, h.want, List.contains_iff_mem]
      simp only [List.mem_filter]
      constructor
      · exact fun k => Or.inr k.2
      · rintro (k | k)
        · simp at k
        · exact ⟨Or.inr k, k⟩
    · rw [upd_other _ _ e, h.want, List.mem_filter]
      simp [e]
  · exact h.disj t' (List.mem_filter.mp ht).1
  · exact h.future t' (List.mem_filter.mp ht).1

theorem QOk.count {q : Q} {w : Nat → Bool} (h : QOk q w) {t : Nat} (ht : t < q.now) :
    q.log.count t = if w t = true then 1 else 0 := by
  have hnd : q.log.Nodup := h.sorted.imp (fun {a b} hab => Nat.ne_of_lt hab)
  have hmem : w t = true ↔ t ∈ q.log := by
    rw [h.want]
    constructor
    · rintro (k | k)
      · have := h.future t k; omega
      · exact k
    · exact Or.inr
  by_cases hw : w t = true
  · rw [if_pos hw]
    have h1 := List.nodup_iff_count.mp hnd t
    have h2 := List.count_pos_iff.mpr (hmem.mp hw)
    omega
  · rw [if_neg hw]
    exact List.count_eq_zero.mpr (fun k => hw (hmem.mpr k))

/-! ## UniqueEvent -/

structure UOk (u : U) (w : Nat → Bool) : Prop where
  q : QOk u.q w
  last : ∀ t, u.last = some t → t ∈ u.q.log
  now : u.q.now ∈ u.q.log → u.last = some u.q.now

theorem UOk.fired_iff {u : U} {w : Nat → Bool} (h : UOk u w) (rel : Nat) :
    u.last = some (u.q.now + rel) ↔ u.q.now + rel ∈ u.q.log := by
  constructor
  · exact h.last _
  · intro hm
    have := h.q.past _ hm
    have hr : rel = 0 := by omega
    subst hr
    exact h.now hm

theorem UOk.step {u : U} {w : Nat → Bool} (h : UOk u w) (op : UOp) (hp : op.plain) :
    UOk (u.step op).1 (u.want w op) := by
  cases op with
  | advance n =>
    refine ⟨h.q.advance n, ?_, ?_⟩
    · intro t ht
      show t ∈ (u.q.advance n).log
      unfold Q.advance
      split <;> exact h.last t ht
    · show (u.q.advance n).now ∈ (u.q.advance n).log → u.last = some (u.q.advance n).now
      unfold Q.advance
      split
      · exact h.now
      · intro hm
        have := h.q.past _ hm
        have hn : n = 0 := by
          have h2 : u.q.now + n ≤ u.q.now := this
          omega
        subst hn
        exact h.now hm
  | fire =>
    show UOk u.fire w
    unfold U.fire
    split
    · rename_i hm
      have hf : u.q.fire = { u.q with waiting := u.q.waiting.erase u.q.now, log := u.q.log ++ [u.q.now] } := by
        unfold Q.fire; rw [if_pos hm]
      refine ⟨h.q.fire, ?_, ?_⟩
      · intro t ht
        have ht' : some u.q.now = some t := ht
        injection ht' with ht'
        show t ∈ u.q.fire.log
        rw [hf, ← ht']
        exact List.mem_append_right _ (List.mem_singleton.mpr rfl)
      · intro _
        show some u.q.now = some u.q.fire.now
        rw [hf]
    · exact h
  | schedule rel late =>
    show UOk (u.schedule rel late).1 (if (u.schedule rel late).2 = none then upd w (u.q.now + rel) true else w)
    unfold U.schedule
    by_cases h1 : u.last = some (u.q.now + rel)
    · simp only [if_pos h1]; exact h
    · simp only [if_neg h1]
      by_cases h2 : rel = 0 ∧ late = true
      · simp only [if_pos h2]; exact h
      · simp only [if_neg h2]
        by_cases h3 : u.q.now + rel ∈ u.q.waiting
        · simp only [if_pos h3]
          rw [if_pos trivial, upd_true ((h.q.want _).mpr (Or.inl h3))]
          exact h
        · simp only [if_neg h3]
          rw [if_pos trivial]
          refine ⟨h.q.add ?_ (Nat.le_add_right _ _), h.last, h.now⟩
          cases hw : w (u.q.now + rel) with
          | false => rfl
          | true =>
            rcases (h.q.want _).mp hw with k | k
            · exact absurd k h3
            · exact absurd ((h.fired_iff rel).mpr k) h1
  | cancel => exact ⟨h.q.cancel, h.last, h.now⟩
  | cancelAt rel => exact ⟨h.q.cancelAt _, h.last, h.now⟩
  | drained rel => exact hp.elim
  | restart t => exact hp.elim

theorem UOk.init : UOk {} (fun _ => false) :=
  ⟨QOk.init, fun t h => (by cases h), fun h => (by cases h)⟩

theorem UOk.run : ∀ (ops : List UOp) (u : U) (w : Nat → Bool), UOk u w → (∀ op ∈ ops, op.plain) →
    UOk (u.run ops).1 (u.wants w ops) := by
  intro ops
  induction ops with
  | nil => intro u w h _; exact h
  | cons op ops ih =>
    intro u w h hp
    exact ih _ _ (h.step op (hp op List.mem_cons_self)) (fun o ho => hp o (List.mem_cons_of_mem _ ho))

/-! ## SingleCycleUniqueEvent -/

structure SOk (s : S) (w : Nat → Bool) : Prop where
  q : QOk s.q w
  pos : 0 < s.period
  aligned : ∀ t, w t = true → s.period ∣ t
  fresh : s.first = true → (∀ t, w t = false) ∧ s.next = 0 ∧ s.prev = 0
  top : s.first = false → w s.next = true ∧ (∀ t, w t = true → t ≤ s.next) ∧ s.next ≤ s.q.now + s.period
  ahead : s.first = false → s.q.now < s.next → ∃ a, s.next = a + s.period ∧ a ≤ s.q.now ∧ s.period ∣ a
    ∧ s.prev ≤ a ∧ (w a = true → s.prev = a) ∧ (s.prev = a → w a = true ∨ a = 0)

/-- Two ticks of a clock less than a period apart are the same. -/
theorem dvd_eq {p a b : Nat} (ha : p ∣ a) (hb : p ∣ b) (h1 : a ≤ b) (h2 : b < a + p) : a = b := by
  obtain ⟨k, hk⟩ := Nat.dvd_sub hb ha
  cases k with
  | zero => omega
  | succ k =>
    rw [Nat.mul_succ] at hk
    omega

/-- What a request does. -/
theorem SOk.schedule {s : S} {w : Nat → Bool} (h : SOk s w) (c : Nat) (late : Bool) (hal : s.period ∣ s.q.now)
    (h0 : s.q.now = 0 → c = 0 → w s.period = true → w 0 = true) :
    SOk (s.schedule c late).1 (if (s.schedule c late).2 = none then upd w (s.q.now + c * s.period) true else w)
    ∧ (c < 2 → s.debugOk c = true) := by
  have hpos := h.pos
  by_cases hc : c < 2
  case neg =>
    unfold S.schedule
    simp only [if_pos hc]
    exact ⟨h, fun k => absurd k hc⟩
  -- membership in the queue
  have hnot : ∀ t, w t = false → t ∉ s.q.waiting ∧ t ∉ s.q.log := fun t ht =>
    ⟨fun k => Bool.false_ne_true (ht ▸ (h.q.want t).mpr (Or.inl k)),
     fun k => Bool.false_ne_true (ht ▸ (h.q.want t).mpr (Or.inr k))⟩
  have hthere : ∀ t, w t = false →
      (decide (t ∈ s.q.waiting) || (decide (t = s.q.now) && decide (t ∈ s.q.log))) = false := by
    intro t ht
    simp [(hnot t ht).1, (hnot t ht).2]
  have hnn : ¬ ¬ c < 2 := fun k => k hc
  have hta : s.period ∣ s.q.now + c * s.period := Nat.dvd_add hal (Nat.dvd_mul_left _ _)
  have hcv : c = 0 ∨ c = 1 := by omega
  by_cases hb : s.next < s.q.now + c * s.period ∨ s.first = true
  · -- farther than before
    have hw : w (s.q.now + c * s.period) = false := by
      cases hf : s.first with
      | true => exact (h.fresh hf).1 _
      | false =>
        rw [hf] at hb
        have hlt := hb.resolve_right (by decide)
        cases hw : w (s.q.now + c * s.period) with
        | false => rfl
        | true => have := (h.top hf).2.1 _ hw; omega
    refine ⟨?_, fun _ => ?_⟩
    · unfold S.schedule
      simp only [if_neg hnn, if_pos hb]
      by_cases hl : c * s.period = 0 ∧ late = true
      · simp only [if_pos hl]; exact h
      · simp only [if_neg hl]
        rw [if_pos trivial]
        have hle : ∀ t, w t = true → t ≤ s.next := by
          intro t ht
          cases hf : s.first with
          | true => rw [(h.fresh hf).1 t] at ht; cases ht
          | false => exact (h.top hf).2.1 t ht
        have hnx : s.first = true ∨ s.period ∣ s.next := by
          cases hf : s.first with
          | true => exact Or.inl rfl
          | false => exact Or.inr (h.aligned _ (h.top hf).1)
        have hnlt : s.next ≤ s.q.now + c * s.period := by
          rcases hb with k | k
          · omega
          · rw [(h.fresh k).2.1]; exact Nat.zero_le _
        refine ⟨h.q.add hw (Nat.le_add_right _ _), hpos, fun t ht => ?_, fun k => (by cases k), fun _ => ⟨?_, fun t ht => ?_, ?_⟩, fun _ hlt => ?_⟩
        · by_cases e : t = s.q.now + c * s.period
          · rw [e]; exact hta
          · rw [upd_other _ _ e] at ht; exact h.aligned t ht
        · exact upd_same _ _ _
        · by_cases e : t = s.q.now + c * s.period
          · rw [e]; exact Nat.le_refl _
          · rw [upd_other _ _ e] at ht
            exact Nat.le_trans (hle t ht) hnlt
        · show s.q.now + c * s.period ≤ s.q.now + s.period
          rcases hcv with e | e <;> subst e <;> omega
        · have hlt' : s.q.now < s.q.now + c * s.period := hlt
          have hc1 : c = 1 := by
            rcases hcv with e | e
            · subst e; omega
            · exact e
          subst hc1
          rw [Nat.one_mul] at hb hw hnlt ⊢
          have hprev : s.next ≤ s.q.now := by
            rcases hb with k | k
            · rcases hnx with f | f
              · rw [(h.fresh f).2.1]; exact Nat.zero_le _
              · by_cases hgt : s.q.now < s.next
                · have := dvd_eq hal f (Nat.le_of_lt hgt) k; omega
                · omega
            · rw [(h.fresh k).2.1]; exact Nat.zero_le _
          refine ⟨s.q.now, rfl, Nat.le_refl _, hal, hprev, ?_, ?_⟩
          · intro hwn
            have hwn' : upd w (s.q.now + s.period) true s.q.now = true := hwn
            rw [upd_other _ _ (by omega)] at hwn'
            have := hle _ hwn'
            show s.next = s.q.now
            omega
          · intro hpn
            have hpn' : s.next = s.q.now := hpn
            show upd w (s.q.now + s.period) true s.q.now = true ∨ s.q.now = 0
            rw [upd_other _ _ (by omega)]
            cases hf : s.first with
            | true => right; rw [← hpn']; exact (h.fresh hf).2.1
            | false => left; rw [← hpn']; exact (h.top hf).1
    · unfold S.debugOk
      simp only [if_pos hb, hthere _ hw]
      rfl
  · have hf : s.first = false := by
      cases hf : s.first with
      | true => exact absurd (Or.inr hf) hb
      | false => rfl
    obtain ⟨t1, t2, t3⟩ := h.top hf
    have hge : s.q.now + c * s.period ≤ s.next := Nat.le_of_not_lt (fun k => hb (Or.inl k))
    by_cases he : s.q.now + c * s.period < s.next ∧ s.prev ≠ s.q.now + c * s.period
    · -- the present cycle after the next one
      have hc0 : c = 0 := by
        rcases hcv with e | e
        · exact e
        · subst e; have := he.1; omega
      subst hc0
      have hnow : s.q.now + 0 * s.period = s.q.now := by omega
      rw [hnow] at he ⊢
      obtain ⟨a, a1, a2, a3, a4, a5, a6⟩ := h.ahead hf he.1
      have hae : a = s.q.now := dvd_eq a3 hal a2 (by have := he.1; omega)
      subst hae
      have hw : w s.q.now = false := by
        cases hw : w s.q.now with
        | false => rfl
        | true => exact absurd (a5 hw) he.2
      refine ⟨?_, fun _ => ?_⟩
      · unfold S.schedule
        simp only [hnow]
        rw [if_neg hnn, if_neg (by rw [hnow] at hb; exact hb), if_pos he]
        by_cases hl : 0 * s.period = 0 ∧ late = true
        · simp only [if_pos hl]; exact h
        · simp only [if_neg hl]
          rw [if_pos trivial]
          refine ⟨h.q.add hw (Nat.le_refl _), hpos, fun t ht => ?_, fun k => (by rw [hf] at k; cases k),
            fun _ => ⟨?_, fun t ht => ?_, t3⟩, fun _ _ => ⟨s.q.now, a1, Nat.le_refl _, hal, Nat.le_refl _, fun _ => rfl, fun _ => Or.inl (upd_same _ _ _)⟩⟩
          · by_cases e : t = s.q.now
            · rw [e]; exact hal
            · rw [upd_other _ _ e] at ht; exact h.aligned t ht
          · show upd w s.q.now true s.next = true
            rw [upd_other _ _ (by have := he.1; omega)]; exact t1
          · by_cases e : t = s.q.now
            · rw [e]; exact Nat.le_of_lt he.1
            · rw [upd_other _ _ e] at ht; exact t2 t ht
      · unfold S.debugOk
        simp only [hnow]
        rw [if_neg (by rw [hnow] at hb; exact hb), if_pos he]
        have : s.prev < s.q.now := by have := he.2; omega
        simp [this, (hnot _ hw).1, (hnot _ hw).2]
    · -- already scheduled
      have hw : w (s.q.now + c * s.period) = true := by
        by_cases hlt : s.q.now + c * s.period < s.next
        · have hpe : s.prev = s.q.now + c * s.period := by
            by_cases e : s.prev = s.q.now + c * s.period
            · exact e
            · exact absurd ⟨hlt, e⟩ he
          have hc0 : c = 0 := by
            rcases hcv with e | e
            · exact e
            · subst e; omega
          subst hc0
          have hnow : s.q.now + 0 * s.period = s.q.now := by omega
          rw [hnow] at hlt hpe ⊢
          obtain ⟨a, a1, a2, a3, a4, a5, a6⟩ := h.ahead hf hlt
          have hae : a = s.q.now := dvd_eq a3 hal a2 (by omega)
          subst hae
          rcases a6 hpe with k | k
          · exact k
          · rw [k]
            refine h0 k rfl ?_
            rw [a1, k, Nat.zero_add] at t1
            exact t1
        · have : s.q.now + c * s.period = s.next := by omega
          rw [this]; exact t1
      refine ⟨?_, fun _ => ?_⟩
      · unfold S.schedule
        simp only [if_neg hnn, if_neg hb, if_neg he]
        rw [if_pos trivial, upd_true hw]
        exact h
      · unfold S.debugOk
        simp only [if_neg hb, if_neg he]

theorem SOk.step {s : S} {w : Nat → Bool} (h : SOk s w) (op : SOp) (hl : s.legal w op) :
    SOk (s.step op).1 (s.want w op) := by
  cases op with
  | advance n =>
    show SOk { s with q := s.q.advance n } w
    have hge : s.q.now ≤ (s.q.advance n).now := by
      unfold Q.advance
      split
      · exact Nat.le_refl _
      · exact Nat.le_add_right _ _
    refine ⟨h.q.advance n, h.pos, h.aligned, h.fresh, fun hf => ?_, fun hf hlt => ?_⟩
    · obtain ⟨a, b, c⟩ := h.top hf
      exact ⟨a, b, Nat.le_trans c (Nat.add_le_add_right hge _)⟩
    · have hlt' : (s.q.advance n).now < s.next := hlt
      obtain ⟨a, a1, a2, a3⟩ := h.ahead hf (by omega)
      exact ⟨a, a1, Nat.le_trans a2 hge, a3⟩
  | fire =>
    show SOk { s with q := s.q.fire } w
    have hn : s.q.fire.now = s.q.now := by unfold Q.fire; split <;> rfl
    refine ⟨h.q.fire, h.pos, h.aligned, h.fresh, fun hf => ?_, fun hf hlt => ?_⟩
    · show _ ∧ _ ∧ s.next ≤ s.q.fire.now + s.period
      rw [hn]; exact h.top hf
    · have hlt' : s.q.fire.now < s.next := hlt
      rw [hn] at hlt'
      show ∃ a, _ ∧ a ≤ s.q.fire.now ∧ _
      rw [hn]
      exact h.ahead hf hlt'
  | schedule c late => exact (h.schedule c late hl.1 hl.2).1
  | cancel => exact hl.elim
  | restart t => exact hl.elim

theorem SOk.init (p : Nat) (hp : 0 < p) : SOk { period := p } (fun _ => false) :=
  ⟨QOk.init, hp, fun t h => (by cases h), fun _ => ⟨fun _ => rfl, rfl, rfl⟩, fun h => (by cases h), fun h => (by cases h)⟩

theorem SOk.run : ∀ (ops : List SOp) (s : S) (w : Nat → Bool), SOk s w → s.legals w ops →
    SOk (s.run ops).1 (s.wants w ops) := by
  intro ops
  induction ops with
  | nil => intro s w h _; exact h
  | cons op ops ih =>
    intro s w h hl
    exact ih _ _ (h.step op hl.1) hl.2

end Sparta.UniqEv
