import Verif.Collect.Spec
/-!
The system and what its users see: single collectables.
-/
namespace Sparta.Collect

/-- what the record that is open shows of a past tick -/
def pending (s : Sys) (p i t : Nat) : List Val :=
  if p = s.path ∧ (s.objs i).closed = false ∧ (s.objs i).start ≤ t ∧ t < s.now then [(s.objs i).val] else []

/-- what the calls for single collectables leave as it is; `strict`: values that began earlier have records that began earlier -/
structure Fr where
  reg : List Nat
  en : List Nat
  hbs : List Nat
  last : Nat
  strict : Bool

structure RelO (strict : Bool) (now last : Nat) (o : Obj) (v : View) (i : Nat) : Prop where
  pair : o.pair = v.pair i
  auto : o.auto = v.auto i
  var : o.var = v.var i
  col : o.collected = true ↔ i ∈ v.on ∨ i ∈ v.stale
  att : o.collected = true → o.attached = true
  opened : o.closed = false →
    i ∈ v.on ∧ v.cur i = o.val ∧ o.val ≠ [] ∧ last ≤ o.start ∧ o.start ≤ now ∧ (strict = true → v.began i < now → o.start < now) ∧ v.fits i o.val
  shut : o.closed = true → v.cur i = []

structure Rel (r : Fr) (s : Sys) (v : View) : Prop where
  hH : s.H = v.H
  h1 : 1 < s.H
  now : s.now = v.now
  path : s.path = v.path
  active : s.active = v.active
  closes : s.closes = v.closes
  pend : ∀ t, t ∈ s.pend ↔ t ∈ v.pend
  reg : s.reg = r.reg
  hbs : s.hbs = r.hbs
  last : s.last = r.last
  en : s.enabled = r.en
  dis : ∀ i, i ∈ v.on → i ∉ v.stale
  onact : ∀ i, i ∈ v.on → v.active = true
  obj : ∀ i, RelO r.strict s.now s.last (s.objs i) v i
  le : s.last ≤ s.now
  dvd : s.last % s.H = 0
  act : s.active = true → s.now ≤ s.last + s.H
  shows : ∀ p i t, shown (s.disk p) i t ++ pending s p i t = only (v.pic p i t)
  vals : ∀ i w, v.var i = some w → v.fits i w

variable {r : Fr}

theorem Rel.open_on {s : Sys} {v : View} (R : Rel r s v) {i : Nat} (h : (s.objs i).closed = false) : i ∈ v.on :=
  ((R.obj i).opened h).1

theorem Rel.off_closed {s : Sys} {v : View} (R : Rel r s v) {i : Nat} (h : i ∉ v.on) : (s.objs i).closed = true := by
  cases hc : (s.objs i).closed
  · exact absurd (R.open_on hc) h
  · rfl

theorem Rel.off_cur {s : Sys} {v : View} (R : Rel r s v) {i : Nat} (h : i ∉ v.on) : v.cur i = [] :=
  (R.obj i).shut (R.off_closed h)

theorem cut_short {w : Val} (h : w.length < 65536) : cut w = w := by
  simp [cut, Nat.mod_eq_of_lt h]

theorem shown_append (a b : List Item) (i t : Nat) : shown (a ++ b) i t = shown a i t ++ shown b i t := by
  simp [shown]

theorem shown_record (r : Rec) (i t : Nat) :
    shown [.record r] i t = if r.loc = i ∧ r.start ≤ t ∧ t < r.stop then [r.val] else [] := by
  by_cases h : r.loc = i ∧ r.start ≤ t ∧ t < r.stop
  · simp [shown, h]
  · simp only [shown, List.filterMap_cons, h, if_false, List.filterMap_nil]

theorem shown_index (i t : Nat) : shown [.index] i t = [] := by simp [shown]

theorem shown_replicate (n i t : Nat) : shown (List.replicate n .index) i t = [] := by
  induction n with
  | zero => rfl
  | succ n ih =>
    rw [List.replicate_succ, show Item.index :: List.replicate n .index = [Item.index] ++ List.replicate n .index from rfl,
      shown_append, ih, shown_index]; rfl

theorem update_self (v : View) (f : Nat → Option Val) (h : ∀ i w, f i = some w → w = v.cur i) : v.update f = v := by
  have h1 : (v.update f).cur = v.cur := by
    funext i
    cases hf : f i with
    | none => simp [View.update, hf]
    | some w => simp [View.update, hf, h i w hf]
  have h2 : (v.update f).began = v.began := by
    funext i
    cases hf : f i with
    | none => simp [View.update, hf]
    | some w => simp [View.update, hf, h i w hf]
  show { v with cur := (v.update f).cur, began := (v.update f).began } = v
  rw [h1, h2]

theorem set_set (s : Sys) (i : Nat) (a b : Obj) : (s.set i a).set i b = s.set i b := by
  simp only [Sys.set, Sys.mk.injEq, true_and, and_true]
  funext j
  by_cases e : j = i
  · simp [upd, e]
  · simp [upd, e]

@[simp] theorem set_same (s : Sys) (i : Nat) (a : Obj) : (s.set i a).objs i = a := by simp [Sys.set]
theorem set_other (s : Sys) {i j : Nat} (a : Obj) (h : j ≠ i) : (s.set i a).objs j = s.objs j := upd_other _ _ h
@[simp] theorem set_now (s : Sys) (i : Nat) (a : Obj) : (s.set i a).now = s.now := rfl

theorem single_self (v : View) (i : Nat) : v.update (single i (v.cur i)) = v := by
  apply update_self
  intro j w h
  simp only [single] at h
  split at h
  · rename_i e; cases h; rw [e]
  · cases h

/-- first empty, then a new value -/
theorem single_single (v : View) (i : Nat) (w : Val) (h : w ≠ v.cur i) (h2 : v.cur i ≠ []) :
    (v.update (single i [])).update (single i w) = v.update (single i w) := by
  simp only [View.update, View.mk.injEq, true_and, and_true]
  constructor
  · funext j
    by_cases e : j = i
    · simp [single, e]
    · simp [single, e]
  · funext j
    by_cases e : j = i
    · subst e
      simp only [single, if_true, h, if_false, Option.getD_some]
      split
      · rename_i h3
        simp [Ne.symm h2]
      · rfl
    · simp [single, e]

theorem single_cons (v : View) (i : Nat) (l : List Nat) (g : Nat → Val) :
    (v.update (single i (g i))).update (fun j => if j ∈ l then some (g j) else none)
      = v.update (fun j => if j ∈ i :: l then some (g j) else none) := by
  simp only [View.update, View.mk.injEq, true_and, and_true]
  constructor
  · funext j
    by_cases e : j = i
    · subst e
      by_cases hl : j ∈ l <;> simp [single, hl]
    · by_cases hl : j ∈ l <;> simp [single, hl, e]
  · funext j
    by_cases e : j = i
    · subst e
      by_cases hl : j ∈ l <;> simp [single, hl]
    · by_cases hl : j ∈ l <;> simp [single, hl, e]

theorem update_cur_single (v : View) (i : Nat) (w : Val) : (v.update (single i w)).cur i = w := by
  simp [View.update, single]

theorem update_cur_other (v : View) {i j : Nat} (w : Val) (h : j ≠ i) : (v.update (single i w)).cur j = v.cur j := by
  simp [View.update, single, h]

theorem update_began_other (v : View) {i j : Nat} (w : Val) (h : j ≠ i) : (v.update (single i w)).began j = v.began j := by
  simp [View.update, single, h]

/-- one collectable changes and perhaps something is written -/
theorem Rel.change {s : Sys} {v : View} (R : Rel r s v) (i : Nat) (w : Val) (o : Obj) (d : Nat → List Item) (n : Nat)
    (ho : RelO r.strict s.now s.last o (v.update (single i w)) i)
    (hs : ∀ p j t, shown (d p) j t ++ pending { s with objs := upd s.objs i o, disk := d, ids := n } p j t = only (v.pic p j t)) :
    Rel r { s with objs := upd s.objs i o, disk := d, ids := n } (v.update (single i w)) := by
  refine ⟨R.hH, R.h1, R.now, R.path, R.active, R.closes, R.pend, R.reg, R.hbs, R.last, R.en, R.dis, R.onact, ?_, R.le, R.dvd, R.act,
    hs, R.vals⟩
  intro j
  by_cases e : j = i
  · subst e; simpa using ho
  · have h := R.obj j
    simp only [upd_other _ _ e]
    refine ⟨h.pair, h.auto, h.var, h.col, h.att, ?_, ?_⟩
    · rw [update_cur_other _ _ e, update_began_other _ _ e]; exact h.opened
    · rw [update_cur_other _ _ e]; exact h.shut

/-- the record of one collectable is closed or not, and nothing is written -/
theorem Rel.change0 {s : Sys} {v : View} (R : Rel r s v) (i : Nat) (w : Val) (o : Obj)
    (ho : RelO r.strict s.now s.last o (v.update (single i w)) i)
    (hp : ∀ t, (o.closed = false ∧ o.start ≤ t ∧ t < s.now) → False)
    (hq : ∀ t, ((s.objs i).closed = false ∧ (s.objs i).start ≤ t ∧ t < s.now) → False) :
    Rel r (s.set i o) (v.update (single i w)) := by
  have := R.change i w o s.disk s.ids ho (by
    intro p j t
    rw [← R.shows p j t]
    congr 1
    simp only [pending]
    by_cases e : j = i
    · subst e
      rw [if_neg (fun h => hp t (by simpa using h.2)), if_neg (fun h => hq t h.2)]
    · simp only [upd_other _ _ e])
  exact this

/-- a closed record stays closed, the text changes -/
theorem Rel.setVal {s : Sys} {v : View} (R : Rel r s v) (i : Nat) (w : Val) (hc : (s.objs i).closed = true) :
    Rel r (s.set i { s.objs i with val := w }) v := by
  have h := R.obj i
  have hcur := h.shut hc
  have := R.change0 i (v.cur i) { s.objs i with val := w }
    ⟨h.pair, h.auto, h.var, h.col, h.att, (fun h2 => by simp [hc] at h2), (fun _ => by rw [single_self]; exact hcur)⟩
    (fun t h2 => by simp [hc] at h2) (fun t h2 => by simp [hc] at h2)
  rwa [single_self] at this

/-- a record is opened -/
theorem Rel.openRec {s : Sys} {v : View} (R : Rel r s v) (i : Nat) (w : Val) (hc : (s.objs i).closed = true) (hon : i ∈ v.on)
    (hw : w ≠ []) (hf : v.fits i w) :
    Rel r (s.set i { s.objs i with val := w, start := s.now, closed := false }) (v.update (single i w)) := by
  have h := R.obj i
  have hcur := h.shut hc
  refine R.change0 i w _ ⟨h.pair, h.auto, h.var, h.col, h.att, ?_, (fun h2 => by simp at h2)⟩
    (fun t h2 => by simp at h2; omega) (fun t h2 => by simp [hc] at h2)
  intro _
  refine ⟨hon, update_cur_single _ _ _, hw, R.le, Nat.le_refl _, ?_, hf⟩
  intro _ hb
  exfalso
  have : (v.update (single i w)).began i = v.now := by
    simp [View.update, single, hcur, hw]
  have := R.now
  omega

/-- what `writeRecord_` does for an open record -/
theorem Rel.writeRecord_open {s : Sys} {v : View} (R : Rel r s v) (i : Nat) (cont : Bool) (hc : (s.objs i).closed = false) :
    s.writeRecord i cont false =
      if (s.objs i).start = s.now then (s, .ok false)
      else ({ s with ids := s.ids + 1 }.put (.record { loc := i, start := (s.objs i).start, stop := s.now, id := s.ids + 1
                                                       cont := cont, val := (s.objs i).val }), .ok true) := by
  have h := R.obj i
  obtain ⟨hon, hcur, hne, hl, hn, _, hf⟩ := h.opened hc
  have hcol : (s.objs i).collected = true := h.col.2 (.inl hon)
  have hatt := h.att hcol
  have hact : s.active = true := by rw [R.active]; exact R.onact i hon
  have hend := R.act hact
  simp only [Sys.writeRecord, hatt]
  by_cases e : (s.objs i).start = s.now
  · simp [e]
  · have hlt : (s.objs i).start < s.now := by omega
    have hv : (if (s.objs i).pair = true then (s.objs i).val else cut (s.objs i).val) = (s.objs i).val := by
      split
      · rfl
      · rename_i hp
        rcases hf with hf | hf
        · rw [h.pair] at hp; exact absurd hf hp
        · exact cut_short hf
    simp [e, hlt, Sys.write, hact, hend, hl, hv]

theorem Rel.writeRecord_end {s : Sys} {v : View} (R : Rel r s v) (i : Nat) (hc : (s.objs i).closed = false)
    (hb : (s.objs i).start < s.now) (hw : s.now < s.last + s.H) :
    s.writeRecord i false true =
      ({ s with ids := s.ids + 1 }.put (.record { loc := i, start := (s.objs i).start, stop := s.now + 1, id := s.ids + 1
                                                  cont := false, val := (s.objs i).val }), .ok true) := by
  have h := R.obj i
  obtain ⟨hon, hcur, hne, hl, hn, _, hf⟩ := h.opened hc
  have hcol : (s.objs i).collected = true := h.col.2 (.inl hon)
  have hatt := h.att hcol
  have hact : s.active = true := by rw [R.active]; exact R.onact i hon
  simp only [Sys.writeRecord, hatt]
  have e : ¬ (s.objs i).start = s.now := by omega
  have hlt : (s.objs i).start < s.now + 1 := by omega
  have hend : s.now + 1 ≤ s.last + s.H := by omega
  have hv : (if (s.objs i).pair = true then (s.objs i).val else cut (s.objs i).val) = (s.objs i).val := by
    split
    · rfl
    · rename_i hp
      rcases hf with hf | hf
      · rw [h.pair] at hp; exact absurd hf hp
      · exact cut_short hf
  simp [e, hlt, Sys.write, hact, hend, hl, hv]

/-- the open record is written, and what is left of it begins now -/
theorem Rel.wrote {s : Sys} {v : View} (R : Rel r s v) (i : Nat) (w : Val) (cont : Bool) (hc : (s.objs i).closed = false)
    (o : Obj) (ho : RelO r.strict s.now s.last o (v.update (single i w)) i) (hp : o.closed = false → o.start = s.now) :
    Rel r (({ s with ids := s.ids + 1 }.put (.record { loc := i, start := (s.objs i).start, stop := s.now, id := s.ids + 1, cont := cont, val := (s.objs i).val })).set i o)
      (v.update (single i w)) := by
  refine R.change i w o (upd s.disk s.path (s.disk s.path ++ [.record { loc := i, start := (s.objs i).start, stop := s.now, id := s.ids + 1, cont := cont, val := (s.objs i).val }]))
    (s.ids + 1) ho ?_
  intro p j t
  rw [← R.shows p j t]
  simp only [pending]
  by_cases hpp : p = s.path
  · subst hpp
    simp only [upd_same, shown_append, shown_record, List.append_assoc]
    congr 1
    by_cases e : j = i
    · subst e
      simp only [upd_same, true_and]
      rw [if_neg (c := o.closed = false ∧ o.start ≤ t ∧ t < s.now) (by
        rintro ⟨a, b, c⟩
        have := hp a
        omega)]
      simp [hc]
    · simp only [upd_other _ _ e, Ne.symm e, false_and, if_false, List.nil_append]
  · simp only [upd_other _ _ hpp, hpp, false_and, if_false]

/-- closing a record: the value is gone -/
theorem Rel.close {s : Sys} {v : View} (R : Rel r s v) (i : Nat) :
    ∃ s', s.closeRecord i false = (s', none) ∧ Rel r s' (v.update (single i [])) ∧ (s'.objs i).closed = true := by
  have h := R.obj i
  cases hc : (s.objs i).closed with
  | true =>
    refine ⟨s, ?_, ?_, hc⟩
    · simp only [Sys.closeRecord, hc]
      split <;> simp
    · have hcur := h.shut hc
      have := single_self v i
      rw [hcur] at this
      rwa [this]
  | false =>
    obtain ⟨hon, hcur, hne, hl, hn, hb, hf⟩ := h.opened hc
    have hcol : (s.objs i).collected = true := h.col.2 (.inl hon)
    by_cases e : (s.objs i).start = s.now
    · refine ⟨s.set i { s.objs i with closed := true }, ?_, ?_, by simp [Sys.set]⟩
      · simp [Sys.closeRecord, hcol, hc, R.writeRecord_open i false hc, e]
      · exact R.change0 i [] _ ⟨h.pair, h.auto, h.var, h.col, h.att, (fun h2 => by simp at h2),
          (fun _ => update_cur_single _ _ _)⟩ (fun t h2 => by simp at h2) (fun t h2 => by omega)
    · refine ⟨_, ?_, R.wrote i [] false hc { s.objs i with closed := true, val := [] }
        ⟨h.pair, h.auto, h.var, h.col, h.att, (fun h2 => by simp at h2), (fun _ => update_cur_single _ _ _)⟩
        (fun h2 => by simp at h2), by simp [Sys.set]⟩
      simp [Sys.closeRecord, hcol, hc, R.writeRecord_open i false hc, e, Sys.put]

/-- collecting a value -/
theorem Rel.collect {s : Sys} {v : View} (R : Rel r s v) (i : Nat) (w : Val) (hon : i ∈ v.on) (hf : v.fits i w) :
    ∃ s', s.collect i w = (s', none) ∧ Rel r s' (v.update (single i w)) := by
  have h := R.obj i
  have hcol : (s.objs i).collected = true := h.col.2 (.inl hon)
  cases hc : (s.objs i).closed with
  | true =>
    have hcur := h.shut hc
    by_cases hw : w = []
    · subst hw
      refine ⟨s.set i { s.objs i with val := [] }, by simp [Sys.collect, hcol, hc], ?_⟩
      have := single_self v i
      rw [hcur] at this
      rw [this]
      exact R.setVal i [] hc
    · refine ⟨_, ?_, R.openRec i w hc hon hw hf⟩
      simp [Sys.collect, hcol, hc, hw, Sys.openRecord, h.att hcol, set_set]
  | false =>
    obtain ⟨_, hcur, hne, hl, hn, hb, _⟩ := h.opened hc
    by_cases hw : w = (s.objs i).val
    · refine ⟨s.set i { s.objs i with val := w }, by simp [Sys.collect, hcol, hc, hw, Sys.set], ?_⟩
      have e : s.set i { s.objs i with val := w } = s := by
        rw [hw]
        have : upd s.objs i (s.objs i) = s.objs := by
          funext j; by_cases e : j = i
          · rw [e]; simp
          · exact upd_other _ _ e
        show { s with objs := upd s.objs i (s.objs i) } = s
        rw [this]
      rw [e, hw, ← hcur, single_self]
      exact R
    · obtain ⟨s1, h1, R1, hc1⟩ := R.close i
      have hcur1 : v.cur i ≠ [] := by rw [hcur]; exact hne
      have hss := single_single v i w (by rw [hcur]; exact hw) hcur1
      have hcol1 : (s1.objs i).collected = true := (R1.obj i).col.2 (.inl hon)
      by_cases hw0 : w = []
      · subst hw0
        refine ⟨s1.set i { s1.objs i with val := [] }, ?_, ?_⟩
        · simp [Sys.collect, hcol, hw, hc, h1]
        · exact R1.setVal i [] hc1
      · refine ⟨_, ?_, by have := R1.openRec i w hc1 hon hw0 hf; rwa [hss] at this⟩
        simp [Sys.collect, hcol, hw, hw0, hc, h1, Sys.openRecord, (R1.obj i).att hcol1, set_set, hc1]

theorem Rel.stale_closed {s : Sys} {v : View} (R : Rel r s v) {i : Nat} (h : i ∈ v.stale) : (s.objs i).closed = true :=
  R.off_closed (fun h2 => R.dis i h2 h)

/-- a call for each of several collectables -/
theorem each_rel (f : Sys → Nat → Sys × Option Err) (g : Nat → Val) (Q : View → Nat → Prop)
    (hQ : ∀ v i j, Q v j → Q (v.update (single i (g i))) j)
    (hf : ∀ s v i, Rel r s v → Q v i → ∃ s', f s i = (s', none) ∧ Rel r s' (v.update (single i (g i)))) :
    ∀ (l : List Nat) (s : Sys) (v : View), Rel r s v → (∀ i ∈ l, Q v i) →
      ∃ s', each f s l = (s', none) ∧ Rel r s' (v.update (fun j => if j ∈ l then some (g j) else none)) := by
  intro l
  induction l with
  | nil =>
    intro s v R _
    refine ⟨s, rfl, ?_⟩
    rw [update_self _ _ (by intro i w h; simp at h)]
    exact R
  | cons i l ih =>
    intro s v R hl
    obtain ⟨s1, h1, R1⟩ := hf s v i R (hl i (by simp))
    obtain ⟨s2, h2, R2⟩ := ih s1 _ R1 (fun j hj => hQ v i j (hl j (by simp [hj])))
    rw [single_cons] at R2
    exact ⟨s2, by simp [each, h1, h2], R2⟩

end Sparta.Collect
