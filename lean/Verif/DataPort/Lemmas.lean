import Verif.DataPort.Spec
import Verif.PayloadEvent.Lemmas2
/-! The delivery event of an in port, with the calls a data port makes, is the list of data on their way. -/
namespace Sparta.DataPort

open Sparta.PayloadEvent (PE Proxy Item)

variable {α : Type}

abbrev PS (α : Type) := Sparta.PayloadEvent.Spec α

/-- the specification of the payload event `ps` is the in port `q`; `run`: the handler called by the event is running -/
structure IRep (ps : PS α) (q : SIn α) (now cap : Nat) (run : Bool) : Prop where
  cap : ps.cap = cap
  now : ps.now = now
  past : ps.past = q.past
  fired : ps.fired = q.fired
  refs : ∀ k, (ps.item k).refs = 0
  canc : ∀ k, (ps.item k).cancelled = false
  pend : q.pending.map (fun e => (e.1, some e.2)) = ps.pending.map fun e => (e.1, (ps.item e.2).x)
  cur : q.cur = ps.running.bind fun k => if (ps.item k).live then (ps.item k).x else none
  notw : ∀ k, ps.running = some k → ps.waits k = false
  run : ps.running.isSome = run

def PERep (pe : PE α) (q : SIn α) (now cap : Nat) (run : Bool) : Prop :=
  ∃ ps, Sparta.PayloadEvent.Rep pe ps ∧ IRep ps q now cap run

theorem perep_init (cap : Nat) : PERep (PE.init α cap) (SIn.init α) 0 cap false :=
  ⟨_, Sparta.PayloadEvent.rep_init cap, rfl, rfl, rfl, rfl, fun _ => rfl, fun _ => rfl, rfl, rfl, fun k h => (by cases h), rfl⟩

theorem holds_eq (ps : PS α) (f : α → Bool) (k : Nat) : ps.holds f k = (ps.item k).x.any f := by
  unfold Sparta.PayloadEvent.Spec.holds
  cases (ps.item k).x <;> rfl

/-- the payloads that are there are those on their way and the one being delivered -/
theorem ids_perm {pe : PE α} {ps : PS α} {q : SIn α} {now cap : Nat} {run : Bool} (r : Sparta.PayloadEvent.Rep pe ps)
    (i : IRep ps q now cap run) :
    ps.ids.Perm (ps.pending.map (·.2) ++ (ps.running.filter fun k => (ps.item k).live).toList) := by
  rw [List.perm_ext_iff_of_nodup (Sparta.PayloadEvent.ids_nodup ps)]
  · intro k
    rw [Sparta.PayloadEvent.mem_ids, List.mem_append, List.mem_map, Option.mem_toList, Option.filter_eq_some_iff]
    constructor
    · rintro ⟨_, h⟩
      rcases r.keep k (by simp) h (i.refs k) with h' | h'
      · left
        obtain ⟨e, he, rfl⟩ := (Sparta.PayloadEvent.waits_iff ps k).1 h'
        exact ⟨e, he, rfl⟩
      · exact .inr ⟨h', h⟩
    · rintro (⟨e, he, rfl⟩ | ⟨_, h⟩)
      · have := (r.pend e he).1
        exact ⟨r.liveLt _ this, this⟩
      · exact ⟨r.liveLt _ h, h⟩
  · rw [List.nodup_append]
    refine ⟨r.pnd, ?_, ?_⟩
    · cases ps.running.filter fun k => (ps.item k).live <;> simp
    · intro a ha b hb hab
      subst hab
      rw [Option.mem_toList, Option.filter_eq_some_iff] at hb
      have := i.notw a hb.1
      rw [List.mem_map] at ha
      obtain ⟨e, he, rfl⟩ := ha
      rw [(Sparta.PayloadEvent.waits_iff ps e.2).2 ⟨e, he, rfl⟩] at this
      cases this

theorem cur_some {pe : PE α} {ps : PS α} {q : SIn α} {now cap : Nat} {run : Bool} (r : Sparta.PayloadEvent.Rep pe ps)
    (i : IRep ps q now cap run) :
    (ps.running.filter fun k => (ps.item k).live).toList.map (fun k => (ps.item k).x) = q.cur.toList.map some := by
  rw [i.cur]
  cases hr : ps.running with
  | none => rfl
  | some k =>
    cases hl : (ps.item k).live with
    | false => simp [hl]
    | true =>
      have := r.val k hl
      obtain ⟨x, hx⟩ := Option.isSome_iff_exists.1 this
      simp [hl, hx, Option.filter]

theorem count_eq {pe : PE α} {ps : PS α} {q : SIn α} {now cap : Nat} {run : Bool} (r : Sparta.PayloadEvent.Rep pe ps)
    (i : IRep ps q now cap run) : ps.ids.length = q.count := by
  rw [(ids_perm r i).length_eq, List.length_append]
  have h1 := congrArg List.length i.pend
  have h2 := congrArg List.length (cur_some r i)
  simp only [List.length_map] at h1 h2 ⊢
  unfold SIn.count
  omega

theorem countP_eq {pe : PE α} {ps : PS α} {q : SIn α} {now cap : Nat} {run : Bool} (r : Sparta.PayloadEvent.Rep pe ps)
    (i : IRep ps q now cap run) (f : α → Bool) : ps.ids.countP (ps.holds f) = q.cancelCount f := by
  rw [(ids_perm r i).countP_eq, List.countP_append]
  unfold SIn.cancelCount
  have h1 := congrArg (List.countP fun e : Nat × Option α => e.2.any f) i.pend
  have h2 := congrArg (List.countP fun e : Option α => e.any f) (cur_some r i)
  simp only [List.countP_map] at h1 h2
  have e1 : ((fun e : Nat × Option α => e.2.any f) ∘ fun e : Nat × α => (e.1, some e.2)) = fun e => f e.2 := rfl
  have e2 : ((fun e : Nat × Option α => e.2.any f) ∘ fun e : Nat × Nat => (e.1, (ps.item e.2).x)) = fun e => ps.holds f e.2 := by
    funext e; exact (holds_eq ps f e.2).symm
  have e3 : ((fun e : Option α => e.any f) ∘ fun k => (ps.item k).x) = ps.holds f := by
    funext k; exact (holds_eq ps f k).symm
  have e4 : ((fun e : Option α => e.any f) ∘ some) = f := rfl
  rw [e1, e2] at h1
  rw [e3, e4] at h2
  rw [List.countP_map, h1, ← h2]
  rfl

/-- the cancel calls -/
theorem cancel_irep {ps : PS α} {q : SIn α} {now cap : Nat} {run : Bool} (i : IRep ps q now cap run) (f : α → Bool)
    (hv : ∀ k, (ps.item k).live = true → (ps.item k).x.isSome = true) (sel : Nat → Bool)
    (hs : ∀ k, (ps.item k).x.isSome = true → sel k = ps.holds f k)
    (hp : ∀ e ∈ ps.pending, (ps.item e.2).x.isSome = true) : IRep (ps.cancel sel) (q.cancel f) now cap run := by
  have hx : ∀ k, ((ps.cancel sel).item k).x = (ps.item k).x := by
    intro k
    unfold Sparta.PayloadEvent.Spec.cancel
    dsimp only
    split
    · split <;> rfl
    · rfl
  have hl : ∀ k, ((ps.cancel sel).item k).live = ((ps.item k).live && !sel k) := by
    intro k
    unfold Sparta.PayloadEvent.Spec.cancel
    dsimp only
    cases h1 : sel k <;> cases h2 : (ps.item k).live <;> simp [h2, i.refs k]
  refine ⟨i.cap, i.now, i.past, i.fired, ?_, ?_, ?_, ?_, ?_, i.run⟩
  · intro k
    unfold Sparta.PayloadEvent.Spec.cancel
    dsimp only
    split
    · split <;> exact i.refs k
    · exact i.refs k
  · intro k
    unfold Sparta.PayloadEvent.Spec.cancel
    dsimp only
    split
    · rw [if_pos (i.refs k)]
    · exact i.canc k
  · simp only [hx]
    show (q.pending.filter fun e => !f e.2).map _ = (ps.pending.filter fun e => !sel e.2).map _
    have h1 := congrArg (List.filter fun e : Nat × Option α => !e.2.any f) i.pend
    rw [List.filter_map, List.filter_map] at h1
    have e1 : ps.pending.filter ((fun e : Nat × Option α => !e.2.any f) ∘ fun e : Nat × Nat => (e.1, (ps.item e.2).x)) =
        ps.pending.filter fun e => !sel e.2 := by
      refine List.filter_congr fun e he => ?_
      rw [hs e.2 (hp e he), holds_eq]
      rfl
    rw [e1] at h1
    exact h1
  · show q.cur.filter (fun x => !f x) = ps.running.bind _
    simp only [hx, hl]
    rw [i.cur]
    cases ps.running with
    | none => rfl
    | some k =>
      cases h2 : (ps.item k).live with
      | false => simp [h2]
      | true =>
        obtain ⟨x, h3⟩ := Option.isSome_iff_exists.1 (hv k h2)
        have h4 : sel k = f x := by rw [hs k (by rw [h3]; rfl), holds_eq, h3]; rfl
        cases h5 : f x <;> simp [h2, h3, h4, h5, Option.filter]
  · intro k hk
    have := i.notw k hk
    cases hw : (ps.cancel sel).waits k with
    | false => rfl
    | true =>
      obtain ⟨e, he, rfl⟩ := (Sparta.PayloadEvent.waits_iff _ k).1 hw
      have he' : e ∈ ps.pending := (List.mem_filter.1 he).1
      rw [(Sparta.PayloadEvent.waits_iff ps e.2).2 ⟨e, he', rfl⟩] at this
      cases this

theorem cancelAll_rep {pe : PE α} {q : SIn α} {now cap : Nat} {run : Bool} (h : PERep pe q now cap run) :
    PERep (pe.step .cancelAll).1 (q.cancel fun _ => true) now cap run ∧
      numOf (pe.step .cancelAll).2 = q.cancelCount fun _ => true := by
  obtain ⟨ps, r, i⟩ := h
  obtain ⟨h1, h2⟩ := Sparta.PayloadEvent.rep_step pe ps .cancelAll r trivial
  refine ⟨⟨_, h1, cancel_irep i _ r.val _ (fun k hk => ?_) fun e he => r.val _ (r.pend e he).1⟩, ?_⟩
  · rw [holds_eq]
    obtain ⟨x, hx⟩ := Option.isSome_iff_exists.1 hk
    rw [hx]; rfl
  · rw [h2]
    show ps.ids.length = _
    rw [← countP_eq r i]
    symm
    rw [List.countP_eq_length]
    intro k hk
    rw [holds_eq]
    obtain ⟨x, hx⟩ := Option.isSome_iff_exists.1 (r.val k ((Sparta.PayloadEvent.mem_ids ps k).1 hk).2)
    rw [hx]; rfl

theorem cancelIf_rep {pe : PE α} {q : SIn α} {now cap : Nat} {run : Bool} (h : PERep pe q now cap run) (f : α → Bool) :
    PERep (pe.step (.cancelIf f)).1 (q.cancel f) now cap run ∧
      numOf (pe.step (.cancelIf f)).2 = q.cancelCount f := by
  obtain ⟨ps, r, i⟩ := h
  obtain ⟨h1, h2⟩ := Sparta.PayloadEvent.rep_step pe ps (.cancelIf f) r trivial
  refine ⟨⟨_, h1, cancel_irep i f r.val _ (fun k hk => rfl) fun e he => r.val _ (r.pend e he).1⟩, ?_⟩
  rw [h2]
  exact countP_eq r i f

theorem driven_rep {pe : PE α} {q : SIn α} {now cap : Nat} {run : Bool} (h : PERep pe q now cap run) :
    (pe.step .isScheduled).2 = .yes q.driven := by
  obtain ⟨ps, r, i⟩ := h
  rw [(Sparta.PayloadEvent.rep_step pe ps .isScheduled r trivial).2]
  show Sparta.PayloadEvent.Res.yes (decide (ps.ids.length > 0)) = _
  rw [count_eq r i]
  unfold SIn.count SIn.driven
  congr 1
  cases q.pending <;> cases q.cur <;> simp

theorem drivenAt_rep {pe : PE α} {q : SIn α} {now cap : Nat} {run : Bool} (h : PERep pe q now cap run) (rel : Nat)
    (hl : rel ≠ 0 ∨ q.fired = false) : (pe.step (.isScheduledAt rel)).2 = .yes (q.drivenAt (now + rel)) := by
  obtain ⟨ps, r, i⟩ := h
  rw [(Sparta.PayloadEvent.rep_step pe ps (.isScheduledAt rel) r (by rw [← i.fired] at hl; exact hl)).2]
  show Sparta.PayloadEvent.Res.yes (ps.pending.any fun e => e.1 == ps.now + rel) = _
  rw [i.now]
  have h1 := congrArg (List.any · fun e : Nat × Option α => e.1 == now + rel) i.pend
  simp only [List.any_map] at h1
  unfold SIn.drivenAt
  congr 1
  exact h1.symm

theorem over_rep {pe : PE α} {q : SIn α} {now cap : Nat} {run : Bool} (h : PERep pe q now cap run) :
    pe.over = (!run && q.over now) := by
  obtain ⟨ps, r, i⟩ := h
  rw [Sparta.PayloadEvent.over_eq r]
  unfold Sparta.PayloadEvent.Spec.over SIn.over
  rw [← i.run, i.now]
  have h1 := congrArg (List.any · fun e : Nat × Option α => e.1 == now) i.pend
  simp only [List.any_map] at h1
  have h2 : (ps.pending.any fun e => e.1 == now) = q.pending.any fun e => e.1 == now := h1.symm
  rw [h2]
  have h3 : (q.pending.all fun e => e.1 != now) = !(q.pending.any fun e => e.1 == now) := by
    rw [List.not_any_eq_all_not]; rfl
  rw [h3]
  cases ps.running <;> rfl

theorem past_rep {pe : PE α} {q : SIn α} {now cap : Nat} {run : Bool} (h : PERep pe q now cap run) : pe.past = q.past := by
  obtain ⟨ps, r, i⟩ := h
  exact r.past.trans i.past

theorem pass_rep {pe : PE α} {q : SIn α} {now cap : Nat} (h : PERep pe q now cap false) (ho : q.over now = true) :
    PERep (pe.step .pass).1 { q with past := true } now cap false := by
  have hov := over_rep h
  rw [ho] at hov
  obtain ⟨ps, r, i⟩ := h
  have h1 := (Sparta.PayloadEvent.rep_step pe ps .pass r trivial).1
  have : (ps.step .pass).1 = { ps with past := true } := by
    show (if ps.over then _ else _ : PS α × _).1 = _
    rw [← Sparta.PayloadEvent.over_eq r, hov]; rfl
  rw [this] at h1
  exact ⟨_, h1, i.cap, i.now, rfl, i.fired, i.refs, i.canc, i.pend, i.cur, i.notw, i.run⟩

theorem next_rep {pe : PE α} {q : SIn α} {now cap : Nat} (h : PERep pe q now cap false) (ho : q.over now = true) :
    PERep (pe.step .next).1 { q with past := false, fired := false } (now + 1) cap false := by
  have hov := over_rep h
  rw [ho] at hov
  obtain ⟨ps, r, i⟩ := h
  have h1 := (Sparta.PayloadEvent.rep_step pe ps .next r trivial).1
  have : (ps.step .next).1 = { ps with now := ps.now + 1, past := false, fired := false } := by
    show (if ps.over then _ else _ : PS α × _).1 = _
    rw [← Sparta.PayloadEvent.over_eq r, hov]; rfl
  rw [this] at h1
  exact ⟨_, h1, i.cap, congrArg (· + 1) i.now, rfl, rfl, i.refs, i.canc, i.pend, i.cur, i.notw, i.run⟩

theorem ret_rep {pe : PE α} {q : SIn α} {now cap : Nat} (h : PERep pe q now cap true) :
    PERep pe.ret.1 { q with cur := none } now cap false := by
  obtain ⟨ps, r, i⟩ := h
  have h1 := (Sparta.PayloadEvent.rep_step pe ps .ret r trivial).1
  obtain ⟨k, hk⟩ := Option.isSome_iff_exists.1 i.run
  have hw := i.notw k hk
  have : (ps.step .ret).1 = { ps with running := none, item := upd ps.item k { ps.item k with live := false, cancelled := false } } := by
    simp only [Sparta.PayloadEvent.Spec.step, hk]
    show Sparta.PayloadEvent.Spec.settle _ k = _
    unfold Sparta.PayloadEvent.Spec.settle
    rw [if_pos ⟨i.refs k, hw⟩]
    rfl
  rw [this] at h1
  refine ⟨_, h1, i.cap, i.now, i.past, i.fired, ?_, ?_, ?_, rfl, fun _ h => (by cases h), rfl⟩
  · intro j
    by_cases hj : j = k
    · subst hj; simp [upd, i.refs]
    · simp [upd, hj, i.refs]
  · intro j
    by_cases hj : j = k
    · subst hj; simp [upd]
    · simp [upd, hj, i.canc]
  · rw [i.pend]
    refine List.map_congr_left fun e he => ?_
    by_cases hj : e.2 = k
    · simp [upd, hj]
    · simp [upd, hj]

/-- the data to be delivered next -/
theorem takeDue_eq (x : Nat → Option α) (t : Nat) : ∀ (L : List (Nat × Nat)) (Q : List (Nat × α)), (L.map (·.2)).Nodup →
    Q.map (fun e => (e.1, some e.2)) = L.map (fun e => (e.1, x e.2)) →
    match L.find? fun e => e.1 == t with
    | none => takeDue t Q = none
    | some e => ∃ v l, takeDue t Q = some (v, l) ∧ x e.2 = some v ∧
        l.map (fun e => (e.1, some e.2)) = (L.filter (·.2 != e.2)).map fun e => (e.1, x e.2)
  | [], [], _, _ => rfl
  | [], _ :: _, _, h => by cases h
  | _ :: _, [], _, h => by cases h
  | a :: L, b :: Q, hn, h => by
    simp only [List.map_cons, List.cons.injEq, Prod.mk.injEq] at h
    obtain ⟨⟨h1, h2⟩, h3⟩ := h
    rw [List.map_cons, List.nodup_cons] at hn
    rw [List.find?_cons]
    by_cases ha : a.1 = t
    · have : (a.1 == t) = true := by simpa using ha
      simp only [this]
      refine ⟨b.2, Q, ?_, h2.symm, ?_⟩
      · unfold takeDue; rw [if_pos (h1.trans ha)]
      · rw [h3]
        have : (a :: L).filter (·.2 != a.2) = L := by
          rw [List.filter_cons, if_neg (by simp), List.filter_eq_self]
          intro e he
          simp only [bne_iff_ne, ne_eq]
          intro hc
          exact hn.1 (hc ▸ List.mem_map_of_mem he)
        rw [this]
    · have : (a.1 == t) = false := by simpa using ha
      simp only [this]
      have ih := takeDue_eq x t L Q hn.2 h3
      have hb : ¬ b.1 = t := fun hc => ha (h1 ▸ hc)
      cases hf : L.find? fun e => e.1 == t with
      | none =>
        rw [hf] at ih
        show takeDue t (b :: Q) = none
        unfold takeDue
        rw [if_neg hb, ih]; rfl
      | some e =>
        rw [hf] at ih
        obtain ⟨v, l, e1, e2, e3⟩ := ih
        refine ⟨v, b :: l, ?_, e2, ?_⟩
        · unfold takeDue
          rw [if_neg hb, e1]; rfl
        · have hm : e ∈ L := List.mem_of_find?_eq_some hf
          have hne : a.2 ≠ e.2 := fun hc => hn.1 (hc ▸ List.mem_map_of_mem hm)
          rw [List.filter_cons, if_pos (by simpa using hne)]
          simp only [List.map_cons, e3, h1, h2]

theorem fire_rep {pe : PE α} {q : SIn α} {now cap : Nat} (h : PERep pe q now cap false) :
    match takeDue now q.pending with
    | none => ∃ pe', pe.fire = (pe', .idle) ∧ PERep pe' q now cap false
    | some (x, l) => ∃ pe', pe.fire = (pe', .payload x) ∧
        ∀ d, PERep pe' { q with pending := l, cur := some x, fired := true, data := d } now cap true := by
  obtain ⟨ps, r, i⟩ := h
  obtain ⟨h1, h2⟩ := Sparta.PayloadEvent.rep_step pe ps .fire r trivial
  have hr : ps.running = none := by
    have := i.run
    cases h : ps.running with
    | none => rfl
    | some k => rw [h] at this; cases this
  have htd := takeDue_eq (fun k => (ps.item k).x) now ps.pending q.pending r.pnd i.pend
  have hst : ps.step .fire = match ps.pending.find? fun e => e.1 == now with
      | none => (ps, .idle)
      | some e => ({ ps with pending := ps.pending.filter (·.2 != e.2), running := some e.2, fired := true },
          Sparta.PayloadEvent.resOf (ps.item e.2).x) := by
    show (if ps.running.isSome then _ else _ : PS α × _) = _
    rw [hr, i.now]; rfl
  cases hf : ps.pending.find? fun e => e.1 == now with
  | none =>
    rw [hf] at htd hst
    have htd : takeDue now q.pending = none := htd
    rw [htd]
    have hst : ps.step .fire = (ps, .idle) := hst
    rw [hst] at h1 h2
    exact ⟨pe.fire.1, Prod.ext rfl h2, ps, h1, i⟩
  | some e =>
    rw [hf] at htd hst
    obtain ⟨v, l, e1, e2, e3⟩ := htd
    rw [e1]
    have hst : ps.step .fire = ({ ps with pending := ps.pending.filter (·.2 != e.2), running := some e.2, fired := true },
          Sparta.PayloadEvent.resOf (ps.item e.2).x) := hst
    rw [hst] at h1 h2
    refine ⟨pe.fire.1, Prod.ext rfl ?_, fun d => ⟨_, h1, i.cap, i.now, i.past, rfl, i.refs, i.canc, e3, ?_, ?_, rfl⟩⟩
    · have : (ps.item e.2).x = some v := e2
      rw [this] at h2; exact h2
    · have hl := (r.pend e (List.mem_of_find?_eq_some hf)).1
      have : (ps.item e.2).x = some v := e2
      simp [hl, this]
    · intro k hk
      obtain rfl := Option.some.inj hk
      cases hw : Sparta.PayloadEvent.Spec.waits { ps with pending := ps.pending.filter (·.2 != e.2), running := some e.2, fired := true } e.2 with
      | false => rfl
      | true =>
        obtain ⟨e', he', h'⟩ := (Sparta.PayloadEvent.waits_iff _ e.2).1 hw
        have : e' ∈ ps.pending.filter (·.2 != e.2) := he'
        rw [List.mem_filter] at this
        simp [h'] at this

/-- a payload put on its way -/
theorem queue_rep {pe : PE α} {q : SIn α} {now cap : Nat} {run : Bool} (h : PERep pe q now cap run) (x : α) (d : Nat)
    (hd : d = 0 → q.past = false) :
    if q.count + 1 < cap then
      (queue pe x d).2 = true ∧
        PERep (queue pe x d).1 { q with pending := q.pending ++ [(now + d, x)] } now cap run
    else (queue pe x d).2 = false ∧ PERep (queue pe x d).1 q now cap run := by
  obtain ⟨ps, r, i⟩ := h
  obtain ⟨h1, h2⟩ := Sparta.PayloadEvent.rep_step pe ps (.prepare x) r trivial
  have hst : ps.step (.prepare x) = if q.count + 1 < cap then
      ({ ps with n := ps.n + 1, item := upd ps.item ps.n ⟨some x, 1, false, true⟩ }, .handle ps.n) else (ps, .threw) := by
    show (if ps.ids.length + 1 < ps.cap then _ else _ : PS α × _) = _
    rw [count_eq r i, i.cap]
  by_cases hc : q.count + 1 < cap
  · rw [if_pos hc] at hst ⊢
    rw [hst] at h1 h2
    have hp : pe.prepare x = ((pe.step (.prepare x)).1, .handle ps.n) := Prod.ext rfl h2
    have hdead : (ps.item ps.n).live = false := by
      cases hl : (ps.item ps.n).live with
      | false => rfl
      | true => have := r.liveLt _ hl; omega
    have hnw : ∀ e ∈ ps.pending, e.2 ≠ ps.n := fun e he hc => by
      have := (r.pend e he).1; rw [hc, hdead] at this; cases this
    obtain ⟨h3, h4⟩ := Sparta.PayloadEvent.rep_step _ _ (.schedule ps.n d) h1 ⟨Nat.lt_succ_self _, by simp [upd]⟩
    have hst2 : Sparta.PayloadEvent.Spec.step { ps with n := ps.n + 1, item := upd ps.item ps.n ⟨some x, 1, false, true⟩ } (.schedule ps.n d) =
        ({ ps with n := ps.n + 1, item := upd ps.item ps.n ⟨some x, 1, false, true⟩, pending := ps.pending ++ [(now + d, ps.n)] }, .done) := by
      have hw : Sparta.PayloadEvent.Spec.waits { ps with n := ps.n + 1, item := upd ps.item ps.n ⟨some x, 1, false, true⟩ } ps.n = false := by
        cases hw : Sparta.PayloadEvent.Spec.waits { ps with n := ps.n + 1, item := upd ps.item ps.n ⟨some x, 1, false, true⟩ } ps.n with
        | false => rfl
        | true =>
          obtain ⟨e, he, h'⟩ := (Sparta.PayloadEvent.waits_iff _ _).1 hw
          exact absurd h' (hnw e he)
      unfold Sparta.PayloadEvent.Spec.step
      dsimp only
      rw [if_neg (by rw [hw]; simp [upd]), if_neg (by rintro ⟨h5, h6⟩; rw [i.past, hd h5] at h6; cases h6), i.now]
    rw [hst2] at h3 h4
    obtain ⟨h5, _⟩ := Sparta.PayloadEvent.rep_step _ _ (.drop ps.n) h3 ⟨Nat.lt_succ_self _, by simp [upd]⟩
    have hst3 : (Sparta.PayloadEvent.Spec.step { ps with n := ps.n + 1, item := upd ps.item ps.n ⟨some x, 1, false, true⟩, pending := ps.pending ++ [(now + d, ps.n)] } (.drop ps.n)).1 =
        { ps with n := ps.n + 1, item := upd ps.item ps.n ⟨some x, 0, false, true⟩, pending := ps.pending ++ [(now + d, ps.n)] } := by
      show Sparta.PayloadEvent.Spec.settle _ _ = _
      unfold Sparta.PayloadEvent.Spec.settle
      rw [if_neg]
      · unfold Sparta.PayloadEvent.Spec.set
        congr 1
        funext j
        by_cases hj : j = ps.n
        · simp [upd, hj]
        · simp [upd, hj]
      · rintro ⟨_, hw⟩
        have := (Sparta.PayloadEvent.waits_iff
          (Sparta.PayloadEvent.Spec.set { ps with n := ps.n + 1, item := upd ps.item ps.n ⟨some x, 1, false, true⟩, pending := ps.pending ++ [(now + d, ps.n)] } ps.n
            { (upd ps.item ps.n (⟨some x, 1, false, true⟩ : Item α)) ps.n with refs := ((upd ps.item ps.n (⟨some x, 1, false, true⟩ : Item α)) ps.n).refs - 1 }) ps.n).2
          ⟨(now + d, ps.n), List.mem_append_right _ (List.mem_cons_self ..), rfl⟩
        rw [this] at hw
        cases hw
    rw [hst3] at h5
    have hq : queue pe x d = (((((pe.step (.prepare x)).1).step (.schedule ps.n d)).1.step (.drop ps.n)).1, true) := by
      unfold queue
      rw [hp]
      dsimp only
      have : ((pe.step (.prepare x)).1).step (.schedule ps.n d) = ((((pe.step (.prepare x)).1).step (.schedule ps.n d)).1, .done) := Prod.ext rfl h4
      rw [this]
    rw [hq]
    refine ⟨rfl, _, h5, i.cap, i.now, i.past, i.fired, ?_, ?_, ?_, ?_, ?_, i.run⟩
    · intro j
      by_cases hj : j = ps.n
      · simp [upd, hj]
      · simp [upd, hj, i.refs]
    · intro j
      by_cases hj : j = ps.n
      · simp [upd, hj]
      · simp [upd, hj, i.canc]
    · show (q.pending ++ [(now + d, x)]).map _ = (ps.pending ++ [(now + d, ps.n)]).map _
      rw [List.map_append, List.map_append, i.pend]
      congr 1
      · refine List.map_congr_left fun e he => ?_
        simp [upd, hnw e he]
      · simp [upd]
    · show q.cur = ps.running.bind _
      rw [i.cur]
      cases hr : ps.running with
      | none => rfl
      | some k =>
        have := r.runLt k hr
        have hk : k ≠ ps.n := by omega
        simp [upd, hk]
    · intro k hk
      have hk' : ps.running = some k := hk
      have := r.runLt k hk'
      have hw := i.notw k hk'
      cases hw' : Sparta.PayloadEvent.Spec.waits { ps with n := ps.n + 1, item := upd ps.item ps.n ⟨some x, 0, false, true⟩, pending := ps.pending ++ [(now + d, ps.n)] } k with
      | false => rfl
      | true =>
        obtain ⟨e, he, h'⟩ := (Sparta.PayloadEvent.waits_iff _ _).1 hw'
        have he : e ∈ ps.pending ++ [(now + d, ps.n)] := he
        rw [List.mem_append, List.mem_singleton] at he
        rcases he with he | rfl
        · rw [(Sparta.PayloadEvent.waits_iff ps k).2 ⟨e, he, h'⟩] at hw; cases hw
        · simp only at h'; omega
  · rw [if_neg hc] at hst ⊢
    rw [hst] at h1 h2
    have hp : pe.prepare x = ((pe.step (.prepare x)).1, .threw) := Prod.ext rfl h2
    have hq : queue pe x d = ((pe.step (.prepare x)).1, false) := by unfold queue; rw [hp]
    rw [hq]
    exact ⟨rfl, ps, h1, i⟩

end Sparta.DataPort
