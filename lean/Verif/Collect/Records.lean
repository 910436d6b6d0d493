import Verif.Collect.Spec
/-!
What holds of the files whatever the users do.
-/
namespace Sparta.Collect

theorem records_append (a b : List Item) : records (a ++ b) = records a ++ records b := by simp [records]
theorem records_record (r : Rec) : records [.record r] = [r] := by simp [records]
theorem records_index : records [.index] = [] := by simp [records]
theorem records_replicate (n : Nat) : records (List.replicate n .index) = [] := by
  induction n with
  | zero => rfl
  | succ n ih =>
    rw [List.replicate_succ, show Item.index :: List.replicate n .index = [Item.index] ++ List.replicate n .index from rfl,
      records_append, ih, records_index]; rfl

/-- only collectables and what is pending for them differ -/
structure Core (s s' : Sys) : Prop where
  now : s'.now = s.now
  H : s'.H = s.H
  last : s'.last = s.last
  hbs : s'.hbs = s.hbs
  active : s'.active = s.active
  ids : s'.ids = s.ids
  path : s'.path = s.path
  disk : s'.disk = s.disk
  reg : s'.reg = s.reg

theorem Core.refl (s : Sys) : Core s s := ⟨rfl, rfl, rfl, rfl, rfl, rfl, rfl, rfl, rfl⟩
theorem Core.set (s : Sys) (i : Nat) (o : Obj) : Core s (s.set i o) := ⟨rfl, rfl, rfl, rfl, rfl, rfl, rfl, rfl, rfl⟩

/-- a statement about the files that a new record, with the flag or without it, does not make false -/
structure Pres (P : Sys → Prop) (c : Bool) : Prop where
  congr : ∀ s s', Core s s' → P s → P s'
  bump : ∀ s, P s → P { s with ids := s.ids + 1 }
  put : ∀ s (r : Rec), P s → s.active = true → r.id = s.ids + 1 → r.start < r.stop → r.stop ≤ s.last + s.H → s.last ≤ r.start →
    r.stop ≤ s.now + 1 → r.cont = c → P ({ s with ids := s.ids + 1 }.put (.record r))

variable {P : Sys → Prop} {c : Bool}

theorem Pres.writeRecord (h : Pres P c) (s : Sys) (i : Nat) (e : Bool) (hp : P s) : P (s.writeRecord i c e).1 := by
  have hk : s.now + (if e = true then 1 else 0) ≤ s.now + 1 := by split <;> omega
  simp only [Sys.writeRecord]
  revert hk
  generalize s.now + (if e = true then 1 else 0) = stop
  intro hk
  split
  · exact hp
  split
  · exact hp
  split
  · exact h.bump s hp
  rename_i h1 h2 h3
  simp only [Sys.write]
  by_cases ha : s.active = true
  · by_cases hb : stop ≤ s.last + s.H
    · by_cases hc : s.last ≤ (s.objs i).start
      · simp only [ha, hb, hc, Bool.not_true, Bool.false_eq_true, if_false, decide_true, ge_iff_le]
        have := h.put s { loc := i, start := (s.objs i).start, stop := stop, id := s.ids + 1, cont := c
                          val := if (s.objs i).pair then (s.objs i).val else cut (s.objs i).val } hp ha rfl (by simpa using h3) hb hc hk rfl
        rw [ha] at this
        exact this
      · simp only [ha, hb, hc, Bool.not_true, Bool.false_eq_true, if_false, decide_true, ge_iff_le, decide_false, Bool.not_false, if_true]
        have := h.bump s hp
        rw [ha] at this
        exact this
    · simp only [ha, hb, Bool.not_true, Bool.false_eq_true, if_false, decide_false, Bool.not_false, if_true]
      have := h.bump s hp
      rw [ha] at this
      exact this
  · have ha : s.active = false := by simpa using ha
    simp only [ha, Bool.not_false, if_true]
    have := h.bump s hp
    rw [ha] at this
    exact this

theorem Pres.closeRecord (h : Pres P false) (s : Sys) (i : Nat) (e : Bool) (hp : P s) : P (s.closeRecord i e).1 := by
  have hw := h.writeRecord s i e hp
  simp only [Sys.closeRecord]
  split
  · exact hp
  split
  · exact hp
  revert hw
  generalize s.writeRecord i false e = x
  intro hw
  match x, hw with
  | (s1, .error e), hw => exact hw
  | (s1, .ok true), hw => exact h.congr _ _ (Core.set _ _ _) hw
  | (s1, .ok false), hw => exact h.congr _ _ (Core.set _ _ _) hw

theorem Pres.restart (h : Pres P true) (s : Sys) (i : Nat) (hp : P s) : P (s.restart i).1 := by
  have hw := h.writeRecord s i false hp
  simp only [Sys.restart]
  split
  · exact hp
  revert hw
  generalize s.writeRecord i true false = x
  intro hw
  match x, hw with
  | (s1, .error e), hw => exact hw
  | (s1, .ok _), hw => exact h.congr _ _ (Core.set _ _ _) hw

theorem Pres.openRecord (h : Pres P c) (s : Sys) (i : Nat) (hp : P s) : P (s.openRecord i).1 := by
  simp only [Sys.openRecord]
  split
  · exact hp
  · exact h.congr _ _ (Core.set _ _ _) hp

theorem Pres.collect (h : Pres P false) (s : Sys) (i : Nat) (v : Val) (hp : P s) : P (s.collect i v).1 := by
  simp only [Sys.collect]
  split
  · exact hp
  have hx : P (if v ≠ (s.objs i).val ∧ (s.objs i).closed = false then s.closeRecord i false else (s, none)).1 := by
    split
    · exact h.closeRecord s i false hp
    · exact hp
  revert hx
  generalize (if v ≠ (s.objs i).val ∧ (s.objs i).closed = false then s.closeRecord i false else (s, none)) = x
  intro hx
  match x, hx with
  | (s1, some e), hx => exact hx
  | (s1, none), hx =>
    have h2 : P (s1.set i { s1.objs i with val := v }) := h.congr _ _ (Core.set _ _ _) hx
    dsimp only
    split
    · exact h.openRecord _ i h2
    · exact h2

theorem Pres.collectFor (h : Pres P false) (s : Sys) (i : Nat) (v : Val) (d : Nat) (hp : P s) : P (s.collectFor i v d).1 := by
  simp only [Sys.collectFor]
  split
  · exact hp
  · apply h.collect
    split
    · exact hp
    · exact h.congr s _ ⟨rfl, rfl, rfl, rfl, rfl, rfl, rfl, rfl, rfl⟩ hp

theorem Pres.position (h : Pres P false) (s : Sys) (i : Nat) (xs : List (Option Val)) (hp : P s) : P (s.position i xs).1 := by
  match xs with
  | [] => exact h.closeRecord s i false hp
  | none :: _ => exact h.closeRecord s i false hp
  | some v :: _ => exact h.collect s i v hp

theorem Pres.collectAll (h : Pres P false) (n : Nat) : ∀ (s : Sys) (b : Nat) (xs : List (Option Val)), P s → P (s.collectAll b n xs).1 := by
  induction n with
  | zero => intro s b xs hp; exact hp
  | succ n ih =>
    intro s b xs hp
    have hx := h.position s b xs hp
    simp only [Sys.collectAll]
    revert hx
    generalize s.position b xs = x
    intro hx
    match x, hx with
    | (s1, some e), hx => exact hx
    | (s1, none), hx => exact ih s1 _ _ hx

theorem Pres.initialize (h : Pres P false) (s : Sys) (i : Nat) (v : Val) (hp : P s) : P (s.initialize i v).1 := by
  simp only [Sys.initialize]
  split
  · split
    · exact h.collect s i v hp
    · exact hp
  · exact h.congr _ _ (Core.set _ _ _) hp

theorem Pres.autoOne (h : Pres P false) (s : Sys) (i : Nat) (hp : P s) : P (s.autoOne i).1 := by
  simp only [Sys.autoOne]
  split
  · split
    · exact h.closeRecord s i false hp
    · exact h.collect s i _ hp
  · exact hp

theorem Pres.stopOne (h : Pres P false) (s : Sys) (i : Nat) (hp : P s) : P (s.stopOne i).1 := by
  simp only [Sys.stopOne]
  have h1 : P (if (s.objs i).auto then { s.set i { s.objs i with attached := true } with
      enabled := (s.set i { s.objs i with attached := true }).enabled.erase i } else s.set i { s.objs i with attached := true }) := by
    split
    · exact h.congr s _ ⟨rfl, rfl, rfl, rfl, rfl, rfl, rfl, rfl, rfl⟩ hp
    · exact h.congr _ _ (Core.set _ _ _) hp
  revert h1
  generalize (if (s.objs i).auto then { s.set i { s.objs i with attached := true } with
      enabled := (s.set i { s.objs i with attached := true }).enabled.erase i } else s.set i { s.objs i with attached := true }) = s1
  intro h1
  have hx : P (if (s1.objs i).pair = false ∧ (s1.objs i).closed = false then s1.closeRecord i false else (s1, none)).1 := by
    split
    · exact h.closeRecord s1 i false h1
    · exact h1
  revert hx
  generalize (if (s1.objs i).pair = false ∧ (s1.objs i).closed = false then s1.closeRecord i false else (s1, none)) = x
  intro hx
  match x, hx with
  | (s2, some e), hx => exact hx
  | (s2, none), hx => exact h.congr _ _ (Core.set _ _ _) hx

theorem Pres.endOne (h : Pres P false) (s : Sys) (i : Nat) (hp : P s) : P (s.endOne i).1 := by
  simp only [Sys.endOne]
  split
  · exact h.closeRecord s i true hp
  · exact hp

theorem Pres.restartOne (h : Pres P true) (s : Sys) (i : Nat) (hp : P s) : P (s.restartOne i).1 := by
  simp only [Sys.restartOne]
  split
  · exact h.restart s i hp
  · exact hp

theorem each_inv (f : Sys → Nat → Sys × Option Err) (hf : ∀ s i, P s → P (f s i).1) (l : List Nat) :
    ∀ s, P s → P (each f s l).1 := by
  induction l with
  | nil => intro s hp; exact hp
  | cons i l ih =>
    intro s hp
    have hx := hf s i hp
    simp only [each]
    revert hx
    generalize f s i = x
    intro hx
    match x, hx with
    | (s1, some e), hx => exact hx
    | (s1, none), hx => exact ih s1 hx

theorem Pres.performCollection (h : Pres P false) (s : Sys) (hp : P s) : P s.performCollection.1 := by
  have hx := each_inv Sys.autoOne (fun s i => h.autoOne s i) s.enabled s hp
  simp only [Sys.performCollection]
  revert hx
  generalize each Sys.autoOne s s.enabled = x
  intro hx
  match x, hx with
  | (s1, some e), hx => exact hx
  | (s1, none), hx =>
    dsimp only
    split
    · exact hx
    · exact h.congr s1 _ ⟨rfl, rfl, rfl, rfl, rfl, rfl, rfl, rfl, rfl⟩ hx

theorem Pres.autos (h : Pres P false) (s : Sys) (hp : P s) :
    P (if s.now ∈ s.pend then { s with pend := s.pend.filter (fun t => t ≠ s.now) }.performCollection else (s, none)).1 := by
  split
  · exact h.performCollection _ (h.congr s _ ⟨rfl, rfl, rfl, rfl, rfl, rfl, rfl, rfl, rfl⟩ hp)
  · exact hp

theorem Pres.beginTick (h : Pres P false) (s : Sys) (hp : P s) : P s.beginTick.1 :=
  each_inv Sys.closeOne (fun s i => h.closeRecord s i false) _ _ (h.congr s _ ⟨rfl, rfl, rfl, rfl, rfl, rfl, rfl, rfl, rfl⟩ hp)

/-- the calls for single collectables, and those that only call them -/
theorem Pres.plain (h : Pres P false) (s : Sys) (hp : P s) (op : Op) : match op with
    | .collect .. | .collectFor .. | .collectAll .. | .close _ | .initialize .. | .assign .. => P (step s op).1
    | _ => True := by
  cases op with
  | collect i v => exact h.collect s i v hp
  | collectFor i v d => exact h.collectFor s i v d hp
  | collectAll b n xs => exact h.collectAll n s b xs hp
  | close i => exact h.closeRecord s i false hp
  | «initialize» i v => exact h.initialize s i v hp
  | assign i x => exact h.congr _ _ (Core.set _ _ _) hp
  | _ => trivial

theorem startOne_core (s : Sys) (i : Nat) : Core { s with reg := insertNew i s.reg } (s.startOne i) := by
  simp only [Sys.startOne]
  split <;> exact ⟨rfl, rfl, rfl, rfl, rfl, rfl, rfl, rfl, rfl⟩

/-- a statement about the files, the ids and the tick that no call makes false, as long as no tick ends -/
structure Calm (P : Sys → Prop) : Prop where
  p0 : Pres P false
  cong : ∀ s s' : Sys, s'.now = s.now → s'.ids = s.ids → s'.disk = s.disk → s'.H = s.H → s'.path = s.path → P s → P s'
  clear : ∀ (s : Sys) n, P s → P { s with disk := upd s.disk s.path (List.replicate n .index) }

theorem Calm.start (h : Calm P) (s : Sys) (is : List Nat) (hp : P s) : P (s.start is) := by
  have key : ∀ (l : List Nat) (x : Sys), P x → P (l.foldl Sys.startOne x) := by
    intro l
    induction l with
    | nil => intro x hx; exact hx
    | cons i l ih =>
      intro x hx
      have c := startOne_core x i
      exact ih _ (h.cong x _ c.now c.ids c.disk c.H c.path hx)
  apply key
  split
  · exact hp
  · exact h.cong { s with disk := upd s.disk s.path (List.replicate (s.now / s.H + 1) .index) } _ rfl rfl rfl rfl rfl (h.clear s (s.now / s.H + 1) hp)

theorem Calm.call (h : Calm P) (s : Sys) (op : Op) (hop : op ≠ .next) (hre : ∀ q, op = .reactivate q → P { s with path := q }) (hp : P s) : P (step s op).1 := by
  cases op with
  | collect i v => exact h.p0.collect s i v hp
  | collectFor i v d => exact h.p0.collectFor s i v d hp
  | collectAll b n xs => exact h.p0.collectAll n s b xs hp
  | close i => exact h.p0.closeRecord s i false hp
  | «initialize» i v => exact h.p0.initialize s i v hp
  | assign i x => exact h.cong s _ rfl rfl rfl rfl rfl hp
  | start is => exact h.start s is hp
  | stop is =>
    have hx : P (each Sys.stopErase s is).1 := by
      refine each_inv _ (fun s i hp => ?_) is s hp
      have hx := h.p0.stopOne s i hp
      simp only [Sys.stopErase]
      revert hx
      generalize s.stopOne i = x
      intro hx
      match x, hx with
      | (s1, some e), hx => exact hx
      | (s1, none), hx => exact h.cong s1 _ rfl rfl rfl rfl rfl hx
    simp only [Collect.step, Sys.stop]
    revert hx
    generalize each Sys.stopErase s is = x
    intro hx
    match x, hx with
    | (s1, some e), hx => exact hx
    | (s1, none), hx => exact h.cong s1 _ rfl rfl rfl rfl rfl hx
  | stopAll =>
    have hx := each_inv Sys.stopOne (fun s i => h.p0.stopOne s i) s.reg s hp
    simp only [Collect.step, Sys.stopAll]
    revert hx
    generalize each Sys.stopOne s s.reg = x
    intro hx
    match x, hx with
    | (s1, some e), hx => exact hx
    | (s1, none), hx => exact h.cong s1 _ rfl rfl rfl rfl rfl hx
  | destroy =>
    have hx : P (if s.active then each Sys.endOne s s.reg else (s, none)).1 := by
      split
      · exact each_inv Sys.endOne (fun s i => h.p0.endOne s i) s.reg s hp
      · exact hp
    simp only [Collect.step, Sys.destroy]
    revert hx
    generalize (if s.active then each Sys.endOne s s.reg else (s, none)) = x
    intro hx
    match x, hx with
    | (s1, some e), hx => exact hx
    | (s1, none), hx => exact h.cong s1 _ rfl rfl rfl rfl rfl hx
  | reactivate p =>
    simp only [Collect.step, Sys.reactivate]
    split
    · exact hp
    · exact hre p rfl
  | next => exact absurd rfl hop

/-- the end of a tick does not make it false either -/
structure Steady (P : Sys → Prop) : Prop extends Calm P where
  p1 : Pres P true
  index : ∀ s : Sys, P s → P (s.put .index)
  tick : ∀ s : Sys, P s → P { s with now := s.now + 1 }

theorem Steady.heartbeat (h : Steady P) (s : Sys) (hp : P s) : P s.heartbeat.1 := by
  simp only [Sys.heartbeat]
  split
  · exact hp
  have hx := each_inv Sys.restartOne (fun s i => h.p1.restartOne s i) s.reg s hp
  revert hx
  generalize each Sys.restartOne s s.reg = x
  intro hx
  match x, hx with
  | (s1, some e), hx => exact hx
  | (s1, none), hx => exact h.cong (s1.put .index) _ rfl rfl rfl rfl rfl (h.index s1 hx)

theorem Steady.next (h : Steady P) (s : Sys) (hp : P s) : P s.next.1 := by
  have hx : P s.endTick.1 := by
    have hx := h.p0.autos s hp
    simp only [Sys.endTick]
    revert hx
    generalize (if s.now ∈ s.pend then { s with pend := s.pend.filter (fun t => t ≠ s.now) }.performCollection else (s, none)) = x
    intro hx
    match x, hx with
    | (s1, some e), hx => exact hx
    | (s1, none), hx =>
      dsimp only
      split
      · exact h.heartbeat _ (h.cong s1 _ rfl rfl rfl rfl rfl hx)
      · exact hx
  simp only [Sys.next]
  revert hx
  generalize s.endTick = x
  intro hx
  match x, hx with
  | (s1, some e), hx => exact hx
  | (s1, none), hx => exact h.p0.beginTick _ (h.tick s1 hx)

theorem Steady.step (h : Steady P) (s : Sys) (op : Op) (hre : ∀ q, op = .reactivate q → P { s with path := q }) (hp : P s) :
    P (step s op).1 := by
  by_cases hop : op = .next
  · subst hop; exact h.next s hp
  · exact h.call s op hop hre hp

/-! ### Ids -/

/-- ids grow along each file, are not used twice, and records have a beginning before their end -/
structure Ids (s : Sys) : Prop where
  inc : ∀ p, (records (s.disk p)).Pairwise (fun a b => a.id < b.id)
  le : ∀ p, ∀ r ∈ records (s.disk p), 1 ≤ r.id ∧ r.id ≤ s.ids
  apart : ∀ p q, p ≠ q → ∀ a ∈ records (s.disk p), ∀ b ∈ records (s.disk q), a.id ≠ b.id
  pos : ∀ p, ∀ r ∈ records (s.disk p), r.start < r.stop ∧ r.stop ≤ s.now + 1

theorem records_put (s : Sys) (r : Rec) (p : Nat) :
    records ((s.put (.record r)).disk p) = if p = s.path then records (s.disk p) ++ [r] else records (s.disk p) := by
  simp only [Sys.put]
  split
  · rename_i h; subst h; rw [upd_same, records_append, records_record]
  · rename_i h; rw [upd_other _ _ h]

theorem records_put_index (s : Sys) (p : Nat) : records ((s.put .index).disk p) = records (s.disk p) := by
  simp only [Sys.put]
  by_cases h : p = s.path
  · subst h; rw [upd_same, records_append, records_index, List.append_nil]
  · rw [upd_other _ _ h]

theorem records_clear (f : Nat → List Item) (q n p : Nat) :
    records (upd f q (List.replicate n .index) p) = if p = q then [] else records (f p) := by
  split
  · rename_i h; subst h; rw [upd_same, records_replicate]
  · rename_i h; rw [upd_other _ _ h]

theorem Ids.pres (c : Bool) : Pres Ids c where
  congr := fun s s' h I => ⟨by rw [h.disk]; exact I.inc, by rw [h.disk, h.ids]; exact I.le, by rw [h.disk]; exact I.apart,
    by rw [h.disk, h.now]; exact I.pos⟩
  bump := fun s I => ⟨I.inc, fun p r hr => ⟨(I.le p r hr).1, Nat.le_succ_of_le (I.le p r hr).2⟩, I.apart, I.pos⟩
  put := by
    intro s r I ha hid h1 h2 h3 h4 hc
    have hle : ∀ p, ∀ a ∈ records (s.disk p), a.id < r.id := fun p a ha => by have := (I.le p a ha).2; omega
    constructor
    · intro p
      rw [records_put]
      split
      · rw [List.pairwise_append]
        exact ⟨I.inc p, List.pairwise_singleton _ _, fun a ha b hb => by simp at hb; subst hb; exact hle p a ha⟩
      · exact I.inc p
    · intro p a ha
      rw [records_put] at ha
      show 1 ≤ a.id ∧ a.id ≤ s.ids + 1
      split at ha
      · rcases List.mem_append.1 ha with ha | ha
        · have := I.le p a ha; omega
        · simp at ha; subst ha; omega
      · have := I.le p a ha; omega
    · intro p q hpq a ha b hb
      rw [records_put] at ha hb
      split at ha
      · rename_i h5
        rw [if_neg (by rw [← h5]; exact fun e => hpq e.symm)] at hb
        rcases List.mem_append.1 ha with ha | ha
        · exact I.apart p q hpq a ha b hb
        · simp at ha; subst ha; exact Nat.ne_of_gt (hle q b hb)
      · split at hb
        · rcases List.mem_append.1 hb with hb | hb
          · exact I.apart p q hpq a ha b hb
          · simp at hb; subst hb; exact Nat.ne_of_lt (hle p a ha)
        · exact I.apart p q hpq a ha b hb
    · intro p a ha
      rw [records_put] at ha
      show a.start < a.stop ∧ a.stop ≤ s.now + 1
      split at ha
      · rcases List.mem_append.1 ha with ha | ha
        · exact I.pos p a ha
        · simp at ha; subst ha; exact ⟨h1, h4⟩
      · exact I.pos p a ha

theorem Ids.steady : Steady Ids where
  p0 := Ids.pres false
  p1 := Ids.pres true
  cong := fun s s' h1 h2 h3 _ _ I => ⟨by rw [h3]; exact I.inc, by rw [h3, h2]; exact I.le, by rw [h3]; exact I.apart,
    by rw [h3, h1]; exact I.pos⟩
  clear := by
    intro s n I
    constructor
    · intro p
      simp only [records_clear]
      split
      · exact List.Pairwise.nil
      · exact I.inc p
    · intro p r hr
      simp only [records_clear] at hr
      split at hr
      · cases hr
      · exact I.le p r hr
    · intro p q' hpq a ha b hb
      simp only [records_clear] at ha hb
      split at ha
      · cases ha
      · split at hb
        · cases hb
        · exact I.apart p q' hpq a ha b hb
    · intro p r hr
      simp only [records_clear] at hr
      split at hr
      · cases hr
      · exact I.pos p r hr
  index := fun s I => ⟨fun p => by rw [records_put_index]; exact I.inc p, fun p r hr => by rw [records_put_index] at hr; exact I.le p r hr,
    fun p q h a ha b hb => by rw [records_put_index] at ha hb; exact I.apart p q h a ha b hb,
    fun p r hr => by rw [records_put_index] at hr; exact I.pos p r hr⟩
  tick := fun s I => ⟨I.inc, I.le, I.apart, fun p r hr => ⟨(I.pos p r hr).1, Nat.le_succ_of_le (I.pos p r hr).2⟩⟩

theorem Ids.new (H : Nat) (pair auto : Nat → Bool) : Ids (Sys.new H pair auto) := by
  constructor <;> intros <;> simp_all [Sys.new, records]

/-! ### Intervals -/

/-- the intervals of the index: after `k` marks come the records of the interval that ends at `k * H` -/
def framed (H : Nat) : Nat → List Item → Prop
  | _, [] => True
  | k, .index :: l => framed H (k + 1) l
  | k, .record r :: l => (1 ≤ k ∧ (k - 1) * H ≤ r.start ∧ r.stop ≤ k * H) ∧ framed H k l

/-- the number of marks -/
def marks (l : List Item) : Nat := l.countP (fun x => x == .index)

theorem framed_append (H : Nat) (a b : List Item) : ∀ k, framed H k (a ++ b) ↔ framed H k a ∧ framed H (k + marks a) b := by
  induction a with
  | nil => intro k; simp [framed, marks]
  | cons x a ih =>
    intro k
    cases x with
    | index =>
      have : k + 1 + marks a = k + marks (.index :: a) := by simp [marks]; omega
      simp only [List.cons_append, framed, ih, this]
    | record r =>
      have : marks (.record r :: a) = marks a := by simp [marks]
      simp only [List.cons_append, framed, ih, this, and_assoc]

theorem framed_replicate (H n : Nat) : ∀ k, framed H k (List.replicate n .index) := by
  induction n with
  | zero => intro k; exact trivial
  | succ n ih => intro k; exact ih (k + 1)

theorem marks_append (a b : List Item) : marks (a ++ b) = marks a + marks b := by simp [marks]
theorem marks_replicate (n : Nat) : marks (List.replicate n .index) = n := by simp [marks, List.countP_replicate]

structure Frames (s : Sys) : Prop where
  pos : 0 < s.H
  fr : ∀ p, framed s.H 0 (s.disk p)
  dvd : s.last % s.H = 0
  le : s.last ≤ s.now
  hbs : ∀ h ∈ s.hbs, s.now ≤ h ∧ h % s.H = 0 ∧ h ≤ s.last + s.H
  act : s.active = true → marks (s.disk s.path) = s.last / s.H + 1 ∧ ∀ h ∈ s.hbs, h = s.last + s.H
  empty : s.active = false → s.reg = []

theorem Frames.pres (c : Bool) : Pres Frames c where
  congr := fun s s' h F => ⟨by rw [h.H]; exact F.pos, by rw [h.H, h.disk]; exact F.fr, by rw [h.H, h.last]; exact F.dvd,
    by rw [h.last, h.now]; exact F.le, by rw [h.hbs, h.now, h.H, h.last]; exact F.hbs,
    by rw [h.active, h.disk, h.path, h.last, h.H, h.hbs]; exact F.act,
    by rw [h.active, h.reg]; exact F.empty⟩
  bump := fun s F => ⟨F.pos, F.fr, F.dvd, F.le, F.hbs, F.act, F.empty⟩
  put := by
    intro s r F ha hid h1 h2 h3 h4 hc
    obtain ⟨hm, hh⟩ := F.act ha
    have hl : s.last / s.H * s.H = s.last := by have := Nat.div_add_mod s.last s.H; rw [F.dvd, Nat.mul_comm] at this; omega
    refine ⟨F.pos, ?_, F.dvd, F.le, F.hbs, fun _ => ⟨?_, hh⟩, F.empty⟩
    · intro p
      show framed s.H 0 (upd s.disk s.path (s.disk s.path ++ [.record r]) p)
      by_cases hp : p = s.path
      · subst hp
        rw [upd_same, framed_append]
        refine ⟨F.fr _, ?_, trivial⟩
        rw [hm, Nat.zero_add]
        refine ⟨Nat.le_add_left _ _, ?_, ?_⟩
        · rw [Nat.add_sub_cancel, hl]; exact h3
        · rw [Nat.add_mul, hl, Nat.one_mul]; exact h2
      · rw [upd_other _ _ hp]; exact F.fr p
    · show marks (upd s.disk s.path (s.disk s.path ++ [.record r]) s.path) = _
      rw [upd_same, marks_append, hm]; rfl

theorem Frames.off {s : Sys} (F : Frames s) (a : Bool) (l : List Nat) (h : a = true → s.active = true) (he : a = false → l = []) :
    Frames { s with active := a, reg := l } := ⟨F.pos, F.fr, F.dvd, F.le, F.hbs, fun ha => F.act (h ha), he⟩

theorem Frames.activate {s : Sys} (F : Frames s) (ho : s.now % s.H ≠ 0 ∨ s.now ∉ s.hbs) : Frames s.activate := by
  have hd := Nat.div_add_mod s.now s.H
  have hlt := Nat.mod_lt s.now F.pos
  have hld := Nat.div_add_mod s.last s.H
  rw [F.dvd] at hld
  have hle := F.le
  have hdiv : s.last / s.H ≤ s.now / s.H := Nat.div_le_div_right hle
  have hmul : s.H * (s.last / s.H) ≤ s.H * (s.now / s.H) := Nat.mul_le_mul_left _ hdiv
  have hnew : s.now + ((s.now / s.H + 1) * s.H - s.now) = s.now / s.H * s.H + s.H := by
    rw [Nat.add_mul, Nat.one_mul, Nat.mul_comm (s.now / s.H)]; omega
  have hold : ∀ h ∈ s.hbs, h = s.now / s.H * s.H + s.H := by
    intro h hh
    obtain ⟨h1, h2, h3⟩ := F.hbs h hh
    have hhd := Nat.div_add_mod h s.H
    rw [h2] at hhd
    have hne : s.now ≠ h := by
      intro e
      rcases ho with ho | ho
      · rw [e] at ho; exact ho h2
      · rw [e] at ho; exact ho hh
    have h4 : s.now / s.H < h / s.H := by
      apply Nat.lt_of_mul_lt_mul_left (a := s.H); omega
    have h5 : h / s.H ≤ s.last / s.H + 1 := by
      have := Nat.div_le_div_right (c := s.H) h3
      rwa [Nat.add_div_right _ F.pos] at this
    have h6 : h / s.H = s.now / s.H + 1 := by omega
    rw [h6, Nat.mul_add] at hhd
    rw [Nat.mul_comm (s.now / s.H)]; omega
  have hall : ∀ h ∈ s.activate.hbs, h = s.now / s.H * s.H + s.H := by
    intro h hh
    simp only [Sys.activate, insertNew] at hh
    split at hh
    · exact hold h hh
    · rcases List.mem_append.1 hh with hh | hh
      · exact hold h hh
      · rw [List.mem_singleton.1 hh, hnew]
  refine ⟨F.pos, ?_, Nat.mul_mod_left _ _, ?_, ?_, fun _ => ⟨?_, hall⟩, fun h => by cases h⟩
  · intro p
    show framed s.H 0 (upd s.disk s.path _ p)
    by_cases hp : p = s.path
    · subst hp; rw [upd_same]; exact framed_replicate _ _ _
    · rw [upd_other _ _ hp]; exact F.fr p
  · show s.now / s.H * s.H ≤ s.now
    exact Nat.div_mul_le_self _ _
  · intro h hh
    rw [hall h hh]
    refine ⟨?_, by simp [Sys.activate], Nat.le_refl _⟩
    show s.now ≤ _
    rw [Nat.mul_comm]; omega
  · show marks (upd s.disk s.path _ s.path) = s.now / s.H * s.H / s.H + 1
    rw [upd_same, marks_replicate, Nat.mul_div_cancel _ F.pos]

theorem Frames.start {s : Sys} (F : Frames s) (is : List Nat) (ho : s.active = true ∨ s.now % s.H ≠ 0 ∨ s.now ∉ s.hbs) :
    Frames (s.start is) := by
  have key : ∀ (l : List Nat) (x : Sys), Frames x ∧ x.active = true → Frames (l.foldl Sys.startOne x) := by
    intro l
    induction l with
    | nil => intro x hx; exact hx.1
    | cons i l ih =>
      intro x hx
      exact ih _ ⟨(Frames.pres false).congr _ _ (startOne_core x i)
        (hx.1.off x.active (insertNew i x.reg) id (fun h => by rw [hx.2] at h; cases h)), by rw [(startOne_core x i).active]; exact hx.2⟩
  apply key
  split
  · rename_i h; exact ⟨F, h⟩
  · rename_i h
    exact ⟨F.activate (ho.resolve_left h), rfl⟩

theorem Frames.heartbeat {s : Sys} (F : Frames s) (hn : s.now ∈ s.hbs) :
    Frames { s with hbs := s.hbs.filter (fun t => t ≠ s.now) }.heartbeat.1 ∧
      ∀ s', { s with hbs := s.hbs.filter (fun t => t ≠ s.now) }.heartbeat = (s', none) → s'.now ∉ s'.hbs := by
  have F1 : Frames { s with hbs := s.hbs.filter (fun t => t ≠ s.now) } :=
    ⟨F.pos, F.fr, F.dvd, F.le, fun h hh => F.hbs h (List.mem_filter.1 hh).1,
      fun ha => ⟨(F.act ha).1, fun h hh => (F.act ha).2 h (List.mem_filter.1 hh).1⟩, F.empty⟩
  simp only [Sys.heartbeat]
  split
  · refine ⟨F1, ?_⟩
    intro s' h
    injection h with h _
    subst h
    simp
  · rename_i ha
    have ha : s.active = true := by simpa using ha
    have hl : s.now = s.last + s.H := (F.act ha).2 _ hn
    have hnil : s.hbs.filter (fun t => t ≠ s.now) = [] := by
      rw [List.filter_eq_nil_iff]
      intro h hh
      have := (F.act ha).2 h hh
      simp; omega
    have hx : Frames (each Sys.restartOne { s with hbs := s.hbs.filter (fun t => t ≠ s.now) } s.reg).1 ∧
        (let x := (each Sys.restartOne { s with hbs := s.hbs.filter (fun t => t ≠ s.now) } s.reg).1
         x.now = s.now ∧ x.last = s.last ∧ x.H = s.H ∧ x.hbs = [] ∧ x.active = true) := by
      have pr : Pres (fun x : Sys => Frames x ∧ (x.now = s.now ∧ x.last = s.last ∧ x.H = s.H ∧ x.hbs = [] ∧ x.active = true)) true :=
        { congr := fun a b h hp => ⟨(Frames.pres true).congr a b h hp.1, by rw [h.now, h.last, h.H, h.hbs, h.active]; exact hp.2⟩
          bump := fun a hp => ⟨(Frames.pres true).bump a hp.1, hp.2⟩
          put := fun a r hp h0 h1 h2 h3 h4 h5 h6 => ⟨(Frames.pres true).put a r hp.1 h0 h1 h2 h3 h4 h5 h6, hp.2⟩ }
      exact each_inv (P := fun x : Sys => Frames x ∧ (x.now = s.now ∧ x.last = s.last ∧ x.H = s.H ∧ x.hbs = [] ∧ x.active = true))
        Sys.restartOne (fun s i => pr.restartOne s i) s.reg _ ⟨F1, rfl, rfl, rfl, hnil, ha⟩
    revert hx
    generalize each Sys.restartOne { s with hbs := s.hbs.filter (fun t => t ≠ s.now) } s.reg = x
    intro hx
    match x, hx with
    | (s1, some e), hx => exact ⟨hx.1, fun s' h => by injection h with _ h; cases h⟩
    | (s1, none), ⟨F2, h1, h2, h3, h4, h5⟩ =>
      dsimp only at F2 h1 h2 h3 h4 h5 ⊢
      have hm := (F2.act h5).1
      refine ⟨⟨F2.pos, ?_, ?_, Nat.le_refl _, ?_, fun _ => ⟨?_, ?_⟩, F2.empty⟩, ?_⟩
      · intro p
        show framed s1.H 0 (upd s1.disk s1.path _ p)
        by_cases hp : p = s1.path
        · subst hp; rw [upd_same, framed_append]; exact ⟨F2.fr _, trivial⟩
        · rw [upd_other _ _ hp]; exact F2.fr p
      · show s1.now % s1.H = 0
        rw [h1, h3, hl, Nat.add_mod_right]; exact F.dvd
      · intro h hh
        simp only [Sys.put, insertNew, h4] at hh
        simp at hh
        subst hh
        refine ⟨Nat.le_add_right _ _, ?_, Nat.le_refl _⟩
        show (s1.now + s1.H) % s1.H = 0
        rw [Nat.add_mod_right, h1, h3, hl, Nat.add_mod_right]; exact F.dvd
      · show marks (upd s1.disk s1.path (s1.disk s1.path ++ [.index]) s1.path) = s1.now / s1.H + 1
        rw [upd_same, marks_append, hm, h1, h2, h3, hl, Nat.add_div_right _ F.pos]; rfl
      · intro h hh
        simp only [Sys.put, insertNew, h4] at hh
        simp at hh
        exact hh
      · intro s' h
        injection h with h _
        subst h
        have := F2.pos
        simp only [Sys.put, insertNew, h4]
        simp; omega

theorem Frames.tick {s : Sys} (F : Frames s) (hn : s.now ∉ s.hbs) : Frames { s with now := s.now + 1 } :=
  ⟨F.pos, F.fr, F.dvd, Nat.le_succ_of_le F.le, fun h hh => ⟨by
    have := (F.hbs h hh).1
    have hne : s.now ≠ h := fun e => hn (by rw [e]; exact hh)
    show s.now + 1 ≤ h
    omega, (F.hbs h hh).2⟩, F.act, F.empty⟩

theorem Frames.next {s : Sys} (F : Frames s) : Frames s.next.1 := by
  have hx : Frames s.endTick.1 ∧ ∀ s', s.endTick = (s', none) → s'.now ∉ s'.hbs := by
    have hx := (Frames.pres false).autos s F
    simp only [Sys.endTick]
    revert hx
    generalize (if s.now ∈ s.pend then { s with pend := s.pend.filter (fun t => t ≠ s.now) }.performCollection else (s, none)) = x
    intro hx
    match x, hx with
    | (s1, some e), hx => exact ⟨hx, fun s' h => by injection h with _ h; cases h⟩
    | (s1, none), hx =>
      dsimp only
      split
      · rename_i h; exact Frames.heartbeat hx h
      · rename_i h
        refine ⟨hx, ?_⟩
        intro s' e
        injection e with e _
        subst e
        exact h
  simp only [Sys.next]
  revert hx
  generalize s.endTick = x
  intro hx
  match x, hx with
  | (s1, some e), hx => exact hx.1
  | (s1, none), hx => exact (Frames.pres false).beginTick _ (hx.1.tick (hx.2 s1 rfl))

/-- when collection begins, it is not at a tick for which a heartbeat is scheduled -/
theorem Frames.step {s : Sys} (F : Frames s) (op : Op)
    (ho : ∀ is, op = .start is → s.active = true ∨ s.now % s.H ≠ 0 ∨ s.now ∉ s.hbs) : Frames (step s op).1 := by
  have pr := Frames.pres false
  cases op with
  | collect i v => exact pr.collect s i v F
  | collectFor i v d => exact pr.collectFor s i v d F
  | collectAll b n xs => exact pr.collectAll n s b xs F
  | close i => exact pr.closeRecord s i false F
  | «initialize» i v => exact pr.initialize s i v F
  | assign i x => exact pr.congr s _ (Core.set _ _ _) F
  | start is => exact F.start is (ho is rfl)
  | stop is =>
    have hx : Frames (each Sys.stopErase s is).1 := by
      refine each_inv _ (fun s i hp => ?_) is s F
      have hx := pr.stopOne s i hp
      simp only [Sys.stopErase]
      revert hx
      generalize s.stopOne i = x
      intro hx
      match x, hx with
      | (s1, some e), hx => exact hx
      | (s1, none), hx => exact Frames.off hx s1.active _ id (fun h => by rw [Frames.empty hx h]; rfl)
    simp only [Collect.step, Sys.stop]
    revert hx
    generalize each Sys.stopErase s is = x
    intro hx
    match x, hx with
    | (s1, some e), hx => exact hx
    | (s1, none), hx =>
      dsimp only at hx ⊢
      refine hx.off (!s1.reg.isEmpty) s1.reg ?_ ?_
      · intro h
        cases ha : s1.active with
        | true => rfl
        | false => rw [hx.empty ha] at h; cases h
      · intro h
        simpa using h
  | stopAll =>
    have hx := each_inv Sys.stopOne (fun s i => pr.stopOne s i) s.reg s F
    simp only [Collect.step, Sys.stopAll]
    revert hx
    generalize each Sys.stopOne s s.reg = x
    intro hx
    match x, hx with
    | (s1, some e), hx => exact hx
    | (s1, none), hx => exact Frames.off hx s1.active _ id (fun _ => rfl)
  | destroy =>
    have hx : Frames (if s.active then each Sys.endOne s s.reg else (s, none)).1 := by
      split
      · exact each_inv Sys.endOne (fun s i => pr.endOne s i) s.reg s F
      · exact F
    simp only [Collect.step, Sys.destroy]
    revert hx
    generalize (if s.active then each Sys.endOne s s.reg else (s, none)) = x
    intro hx
    match x, hx with
    | (s1, some e), hx => exact hx
    | (s1, none), hx => exact Frames.off hx false _ (fun h => by cases h) (fun _ => rfl)
  | reactivate p =>
    simp only [Collect.step, Sys.reactivate]
    split
    · exact F
    · rename_i h
      exact ⟨F.pos, F.fr, F.dvd, F.le, F.hbs, fun ha => absurd ha h, F.empty⟩
  | next => exact F.next

theorem Frames.new (H : Nat) (h : 0 < H) (pair auto : Nat → Bool) : Frames (Sys.new H pair auto) :=
  ⟨h, fun _ => trivial, Nat.zero_mod _, Nat.le_refl _, by simp [Sys.new], by simp [Sys.new], fun _ => rfl⟩

/-! ### Heartbeats before the first start -/

/-- nothing was ever started -/
structure Quiet (s : Sys) : Prop where
  hbs : s.hbs = []
  off : s.active = false

theorem Quiet.pres (c : Bool) : Pres Quiet c where
  congr := fun s s' h Q => ⟨by rw [h.hbs]; exact Q.hbs, by rw [h.active]; exact Q.off⟩
  bump := fun s Q => ⟨Q.hbs, Q.off⟩
  put := fun s r Q ha => by rw [Q.off] at ha; cases ha

theorem Quiet.next {s : Sys} (Q : Quiet s) : Quiet s.next.1 := by
  have hx : Quiet s.endTick.1 := by
    have hx := (Quiet.pres false).autos s Q
    simp only [Sys.endTick]
    revert hx
    generalize (if s.now ∈ s.pend then { s with pend := s.pend.filter (fun t => t ≠ s.now) }.performCollection else (s, none)) = x
    intro hx
    match x, hx with
    | (s1, some e), hx => exact hx
    | (s1, none), hx =>
      dsimp only
      rw [if_neg (by rw [Quiet.hbs hx]; simp)]
      exact hx
  simp only [Sys.next]
  revert hx
  generalize s.endTick = x
  intro hx
  match x, hx with
  | (s1, some e), hx => exact hx
  | (s1, none), hx => exact (Quiet.pres false).beginTick _ ⟨hx.hbs, hx.off⟩

/-- nothing was ever started, and nothing is registered -/
theorem Quiet.step {s : Sys} (Q : Quiet s) (F : Frames s) (op : Op) (ho : ∀ is, op ≠ .start is) : Quiet (step s op).1 := by
  have pr := Quiet.pres false
  cases op with
  | collect i v => exact pr.collect s i v Q
  | collectFor i v d => exact pr.collectFor s i v d Q
  | collectAll b n xs => exact pr.collectAll n s b xs Q
  | close i => exact pr.closeRecord s i false Q
  | «initialize» i v => exact pr.initialize s i v Q
  | assign i x => exact pr.congr s _ (Core.set _ _ _) Q
  | start is => exact absurd rfl (ho is)
  | stop is =>
    have p2 : Pres (fun x : Sys => Quiet x ∧ x.reg = []) false :=
      { congr := fun a b h hp => ⟨pr.congr a b h hp.1, by rw [h.reg]; exact hp.2⟩
        bump := fun a hp => ⟨pr.bump a hp.1, hp.2⟩
        put := fun a r hp h0 h1 h2 h3 h4 h5 h6 => ⟨pr.put a r hp.1 h0 h1 h2 h3 h4 h5 h6, hp.2⟩ }
    have hx : Quiet (each Sys.stopErase s is).1 ∧ (each Sys.stopErase s is).1.reg = [] := by
      refine each_inv (P := fun x : Sys => Quiet x ∧ x.reg = []) _ (fun s i hp => ?_) is s ⟨Q, F.empty Q.off⟩
      have hx := p2.stopOne s i hp
      simp only [Sys.stopErase]
      revert hx
      generalize s.stopOne i = x
      intro hx
      match x, hx with
      | (s1, some e), hx => exact hx
      | (s1, none), hx => exact ⟨⟨hx.1.hbs, hx.1.off⟩, by show s1.reg.erase i = []; rw [show s1.reg = [] from hx.2]; rfl⟩
    simp only [Collect.step, Sys.stop]
    revert hx
    generalize each Sys.stopErase s is = x
    intro hx
    match x, hx with
    | (s1, some e), hx => exact hx.1
    | (s1, none), hx => exact ⟨hx.1.hbs, by show (!s1.reg.isEmpty) = false; rw [show s1.reg = [] from hx.2]; rfl⟩
  | stopAll =>
    have hx := each_inv Sys.stopOne (fun s i => pr.stopOne s i) s.reg s Q
    simp only [Collect.step, Sys.stopAll]
    revert hx
    generalize each Sys.stopOne s s.reg = x
    intro hx
    match x, hx with
    | (s1, some e), hx => exact hx
    | (s1, none), hx => exact ⟨hx.hbs, hx.off⟩
  | destroy =>
    simp only [Collect.step, Sys.destroy, Q.off, Bool.false_eq_true, if_false]
    exact ⟨Q.hbs, rfl⟩
  | reactivate p =>
    simp only [Collect.step, Sys.reactivate, Q.off, Bool.false_eq_true, if_false]
    exact ⟨Q.hbs, rfl⟩
  | next => exact Q.next

theorem keepsH (H : Nat) : Steady (fun s => s.H = H) where
  p0 := ⟨fun s s' h hp => by rw [h.H]; exact hp, fun s hp => hp, fun s r hp _ _ _ _ _ _ _ => hp⟩
  p1 := ⟨fun s s' h hp => by rw [h.H]; exact hp, fun s hp => hp, fun s r hp _ _ _ _ _ _ _ => hp⟩
  cong := fun s s' _ _ _ h _ hp => by rw [h]; exact hp
  clear := fun s n hp => hp
  index := fun s hp => hp
  tick := fun s hp => hp

/-- a run in which collection begins only at ticks that are not the end of an interval, the first time excepted -/
def Apart (s : Sys) (ops : List Op) : Prop :=
  ∀ a is b, ops = a ++ .start is :: b → (runOps step s a).1.active = true ∨ (runOps step s a).1.now % s.H ≠ 0 ∨ ∀ js, Op.start js ∉ a

theorem Frames.run (H : Nat) (hH : 0 < H) (pair auto : Nat → Bool) (ops : List Op) (h : Apart (Sys.new H pair auto) ops) :
    Frames (runOps Collect.step (Sys.new H pair auto) ops).1 := by
  have key : ∀ (b a : List Op), ops = a ++ b → Frames (runOps Collect.step (Sys.new H pair auto) a).1 →
      ((∀ js, Op.start js ∉ a) → Quiet (runOps Collect.step (Sys.new H pair auto) a).1) → Frames (runOps Collect.step (Sys.new H pair auto) ops).1 := by
    intro b
    induction b with
    | nil => intro a e F _; rw [e, List.append_nil]; exact F
    | cons op b ih =>
      intro a e F Q
      have hr : (runOps Collect.step (Sys.new H pair auto) (a ++ [op])).1 = (Collect.step (runOps Collect.step (Sys.new H pair auto) a).1 op).1 := by
        rw [runOps_append]; rfl
      refine ih (a ++ [op]) (by rw [e]; simp) ?_ ?_
      · rw [hr]
        apply F.step
        intro is eo
        subst eo
        rcases h a is b e with h1 | h1 | h1
        · exact .inl h1
        · right; left
          rw [runOps_invariant Collect.step _ (fun s o hp => (keepsH H).step s o (fun _ _ => hp) hp) (Sys.new H pair auto) rfl a]
          exact h1
        · right; right; rw [(Q h1).hbs]; simp
      · intro hn
        rw [hr]
        exact (Q (fun js hj => hn js (by simp [hj]))).step F op (fun is eo => hn is (by simp [eo]))
  exact key ops [] rfl (Frames.new H hH pair auto) (fun _ => ⟨rfl, rfl⟩)

/-! ### Continued records -/

/-- no more continued records than in `s0` -/
def Same (s0 s : Sys) : Prop := ∀ p, ∀ x ∈ records (s.disk p), x.cont = true → x ∈ records (s0.disk p)

theorem Same.calm (s0 : Sys) : Calm (Same s0) where
  p0 := by
    refine ⟨fun s s' h hp => by unfold Same; rw [h.disk]; exact hp, fun s hp => hp, ?_⟩
    intro s r hp _ _ _ _ _ _ hc p x hx hxc
    rw [records_put] at hx
    split at hx
    · rcases List.mem_append.1 hx with hx | hx
      · exact hp p x hx hxc
      · simp at hx; subst hx; rw [hc] at hxc; cases hxc
    · exact hp p x hx hxc
  cong := fun s s' _ _ h _ _ hp => by unfold Same; rw [h]; exact hp
  clear := by
    intro s n hp p x hx hxc
    simp only [records_clear] at hx
    split at hx
    · cases hx
    · exact hp p x hx hxc

/-! ### Other files -/

/-- the current file is `p`, and the others are those of `d` -/
def Others (p : Nat) (d : Nat → List Item) (s : Sys) : Prop := s.path = p ∧ ∀ q, q ≠ p → s.disk q = d q

theorem Others.steady (p : Nat) (d : Nat → List Item) : Steady (Others p d) := by
  have pr : ∀ c, Pres (Others p d) c := fun c =>
    { congr := fun s s' h hp => ⟨by rw [h.path]; exact hp.1, by rw [h.disk]; exact hp.2⟩
      bump := fun s hp => hp
      put := fun s r hp _ _ _ _ _ _ _ => ⟨hp.1, fun q hq => by
        show upd s.disk s.path _ q = d q
        rw [upd_other _ _ (by rw [hp.1]; exact hq)]; exact hp.2 q hq⟩ }
  refine { p0 := pr false, p1 := pr true, cong := ?_, clear := ?_, index := ?_, tick := fun s hp => hp }
  · intro s s' _ _ h3 _ h5 hp
    exact ⟨by rw [h5]; exact hp.1, by rw [h3]; exact hp.2⟩
  · intro s n hp
    exact ⟨hp.1, fun q hq => by
      show upd s.disk s.path _ q = d q
      rw [upd_other _ _ (by rw [hp.1]; exact hq)]; exact hp.2 q hq⟩
  · intro s hp
    exact ⟨hp.1, fun q hq => by
      show upd s.disk s.path _ q = d q
      rw [upd_other _ _ (by rw [hp.1]; exact hq)]; exact hp.2 q hq⟩

end Sparta.Collect
