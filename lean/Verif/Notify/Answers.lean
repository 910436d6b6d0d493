import Verif.Notify.Out
/-! What single calls answer; lists of names. -/
namespace Sparta.Notify
open Sparta.Strings (Str)
open Sparta.PTree (Glob OkName patMatches)

/-! ### nothing else is written, and taps count -/

def numOf (s : State) (k : Nat) : Nat := match s.taps[k]? with
  | none => 0
  | some t => t.num

theorem numOf_taps {s s' : State} (h : s'.taps = s.taps) (k : Nat) : numOf s' k = numOf s k := by rw [numOf, numOf, h]

theorem numOf_set {s s' : State} {k : Nat} {t u : Tap} (ht : s.taps[k]? = some t) (h : s'.taps = s.taps.set k u) (j : Nat) :
    numOf s' j = if j = k then u.num else numOf s j := by
  have hlt : k < s.taps.length := by
    rcases Nat.lt_or_ge k s.taps.length with x | x
    · exact x
    · rw [List.getElem?_eq_none_iff.2 x] at ht; cases ht
  rw [numOf, numOf, h]
  split
  · rename_i h1
    split
    · rename_i e
      subst e
      rw [List.getElem?_set_self hlt] at h1; cases h1
    · rename_i e
      rw [List.getElem?_set_ne (Ne.symm e)] at h1
      rw [h1]
  · rename_i v h1
    split
    · rename_i e
      subst e
      rw [List.getElem?_set_self hlt] at h1; cases h1; rfl
    · rename_i e
      rw [List.getElem?_set_ne (Ne.symm e)] at h1
      rw [h1]

theorem register_res (s : State) (n cb ty name e a k) : (register s n cb ty name e a).2 ≠ .tapped k := by
  rw [register]
  split
  · nofun
  · split
    · nofun
    · split
      · nofun
      · simp only
        split <;> nofun

theorem deregister_res (s : State) (n cb ty name a k) : (deregister s n cb ty name a).2 ≠ .tapped k := by
  rw [deregister]
  split
  · nofun
  · split
    · split <;> nofun
    · nofun

theorem quiet_num (s : State) (o : Op) (h : o.quiet = true) (k : Nat) :
    numOf (step s o).1 k = numOf s k ∧ (step s o).2 ≠ .tapped k := by
  cases o with
  | node => exact ⟨rfl, nofun⟩
  | source p ty name =>
    rw [step]
    split
    · refine ⟨numOf_taps (newSource_keep s p ty name).2.2.2 k, ?_⟩
      rw [newSource]; split <;> nofun
    · exact ⟨rfl, nofun⟩
  | addChild p c =>
    rw [step]
    split
    · refine ⟨numOf_taps (addChild_keep s p c).2.2.2.1 k, ?_⟩
      rw [addChild]
      split
      · nofun
      · split
        · nofun
        · split <;> nofun
    · exact ⟨rfl, nofun⟩
  | makePrivate n =>
    rw [step]
    split
    · exact ⟨rfl, nofun⟩
    · exact ⟨rfl, nofun⟩
  | register n k' ty name e a =>
    rw [step]
    split
    · exact ⟨numOf_taps (register_keep s n (.user k') ty name e a).2.2.2.1 k, register_res _ _ _ _ _ _ _ _⟩
    · exact ⟨rfl, nofun⟩
  | deregister n k' ty name a =>
    rw [step]
    split
    · exact ⟨numOf_taps (deregister_keep s n (.user k') ty name a).2.2.2.1 k, deregister_res _ _ _ _ _ _ _⟩
    · exact ⟨rfl, nofun⟩
  | tap cat dest =>
    refine ⟨?_, nofun⟩
    show (match (s.taps ++ [_])[k]? with | none => 0 | some t => t.num) = _
    rw [numOf, List.getElem?_append]
    split
    · rename_i h1
      split at h1
      · rw [h1]
      · rename_i hlt
        rw [List.getElem?_eq_none_iff.2 (by omega)]
    · rename_i t h1
      split at h1
      · rw [h1]
      · rename_i hlt
        rw [List.getElem?_eq_none_iff.2 (by omega)]
        cases hj : k - s.taps.length with
        | zero => rw [hj] at h1; cases h1; rfl
        | succ => rw [hj] at h1; cases h1
  | tapReset k' n =>
    rw [step]
    split
    · constructor
      · rcases (tapReset_keep s k' n).2.2.2.2 with x | ⟨t, m, ht, x⟩
        · exact numOf_taps x k
        · rw [numOf_set ht x]
          split
          · rename_i e
            subst e
            rw [numOf, ht]
          · rfl
      · rw [tapReset]
        split
        · nofun
        · rename_i t ht
          have hd : (detach s k' t).2 ≠ .tapped k := by
            rw [detach]
            split
            · nofun
            · exact deregister_res _ _ _ _ _ _ _
          simp only
          split
          · exact hd
          · split
            · exact hd
            · split
              · nofun
              · exact register_res _ _ _ _ _ _ _ _
    · exact ⟨rfl, nofun⟩
  | post => cases h
  | deliver => cases h
  | observed i =>
    rw [step]
    split
    · exact ⟨rfl, nofun⟩
    · exact ⟨rfl, nofun⟩

structure SndOK (ops : List Op) (s : State) (w : World) : Prop where
  fr : ∀ f ∈ s.frames, ∀ d ∈ f.rest, ∀ k, d.cb = .tap k → ∃ t, w.taps[k]? = some t ∧ Logged ops t.dest f.msg
  snd : ∀ D, ∀ m ∈ (s.dests D).out, Logged ops D m
  num : ∀ k, (runOps step init ops).2.count (.tapped k) = numOf s k

theorem snd_all {ops : List Op} : Legal ops → SndOK ops (stateOf ops) (world ops) := by
  induction ops using snoc_induction with
  | h0 =>
    intro _
    refine ⟨?_, ?_, fun k => rfl⟩
    · intro f hf; cases hf
    · intro D m hm; cases hm
  | h1 ops o ih =>
    intro hl
    obtain ⟨hl', hp⟩ := legal_snoc hl
    have ho := ih hl'
    obtain ⟨b, hi⟩ := inv_legal hl'
    have hres := res_snoc ops o
    rw [state_snoc, world_snoc]
    change Inv b (stateOf ops) (world ops) at hi
    have hlog : ∀ D m, Logged ops D m → Logged (ops ++ [o]) D m := fun D m h => logged_snoc.2 (.inl h)
    have hnum : ∀ s', (∀ k, (if (step (stateOf ops) o).2 = .tapped k then 1 else 0) + numOf (stateOf ops) k = numOf s' k) →
        ∀ k, (runOps step init (ops ++ [o])).2.count (.tapped k) = numOf s' k := by
      intro s' h k
      rw [hres, List.count_append, ho.num, ← h k, List.count_singleton, Nat.add_comm]
      congr 1
      by_cases e : (step (stateOf ops) o).2 = .tapped k
      · rw [if_pos e, e]; simp
      · rw [if_neg e, if_neg (by simpa using e)]
    clear hres
    generalize stateOf ops = s at *
    have hquiet : o.quiet = true → SndOK (ops ++ [o]) (step s o).1 ((world ops).step (o, (step s o).2)) := by
      intro hq
      obtain ⟨h1, h2, h3⟩ := step_keep s o hq
      refine ⟨?_, ?_, ?_⟩
      · rw [h1]
        intro f hf d hd k hk
        obtain ⟨t, h4, h5⟩ := ho.fr f hf d hd k hk
        refine ⟨t, ?_, hlog _ _ h5⟩
        have hlt : k < (world ops).taps.length := by
          rcases Nat.lt_or_ge k (world ops).taps.length with x | x
          · exact x
          · rw [List.getElem?_eq_none_iff.2 x] at h4; cases h4
        by_cases hr : ∃ k n, o = .tapReset k n
        · obtain ⟨k', n, rfl⟩ := hr
          have hne : s.frames ≠ [] := fun e => by rw [e] at hf; cases hf
          rw [step, if_neg hne]
          exact h4
        · rw [(taps_keep _ o _ (fun k n e => hr ⟨k, n, e⟩)).2 k hlt]
          exact h4
      · rw [h3]
        exact fun D m hm => hlog _ _ (ho.snd D m hm)
      · refine hnum _ (fun k => ?_)
        rw [if_neg (quiet_num s o hq k).2, (quiet_num s o hq k).1, Nat.zero_add]
    cases o with
    | post i x =>
      rcases hsrc : (world ops).srcs i with _ | ⟨ty, nm⟩
      · rcases get_src hi.t i with ⟨y, h1, h2, -⟩ | ⟨h1, h2⟩
        · rw [hsrc] at h2; cases h2
        · have e : step s (.post i x) = (s, .undefined) := by
            show post s i x = _
            rw [post, h1]
          rw [e] at hnum ⊢
          refine ⟨?_, fun D m hm => hlog _ _ (ho.snd D m hm), hnum _ (fun k => by simp)⟩
          intro f hf d hd k hk
          obtain ⟨t, h4, h5⟩ := ho.fr f hf d hd k hk
          exact ⟨t, h4, hlog _ _ h5⟩
      · obtain ⟨l, h1, h2, h3, h4, h5, h6⟩ := post_run hi.t hi.seq hsrc x
        have hw : ((world ops).step (.post i x, (step s (.post i x)).2)).taps = (world ops).taps := by
          rw [h2]
          simp [World.step, hsrc]
        refine ⟨?_, ?_, hnum _ (fun k => ?_)⟩
        · rw [h3, hw]
          intro f hf d hd k hk
          rcases List.mem_cons.1 hf with rfl | hf2
          · obtain ⟨t, h7, h8⟩ := (hi.treg k d hk).1 ((h1.2 d).1 hd).1
            obtain ⟨n, h9, rfl⟩ := mem_tapDel.1 h8
            have hc := ((h1.2 _).1 hd).2
            refine ⟨t, h7, logged_snoc.2 (.inr ?_)⟩
            obtain ⟨nm', h10, h11⟩ := hc
            have h10 : (world ops).srcs i = some (0, nm') := h10
            rw [hsrc] at h10
            cases h10
            exact ⟨i, x, nm, rfl, hsrc, by simp, k, t, n, h7, rfl, h9, nm, hsrc, h11⟩
          · obtain ⟨t, h4, h5⟩ := ho.fr f hf2 d hd k hk
            exact ⟨t, h4, hlog _ _ h5⟩
        · rw [h5]
          exact fun D m hm => hlog _ _ (ho.snd D m hm)
        · rw [h2, if_neg nofun, numOf_taps h4, Nat.zero_add]
    | deliver =>
      cases hf : s.frames with
      | nil =>
        have e : step s .deliver = (s, .undefined) := by
          show deliver s = _
          rw [deliver, hf]
        rw [e] at hnum ⊢
        refine ⟨?_, fun D m hm => hlog _ _ (ho.snd D m hm), hnum _ (fun k => by simp)⟩
        intro f hf d hd k hk
        obtain ⟨t, h4, h5⟩ := ho.fr f hf d hd k hk
        exact ⟨t, h4, hlog _ _ h5⟩
      | cons f fs =>
        obtain ⟨m, rest⟩ := f
        have hfs : ∀ f ∈ fs, ∀ d ∈ f.rest, ∀ k, d.cb = .tap k → ∃ t, (world ops).taps[k]? = some t ∧ Logged (ops ++ [.deliver]) t.dest f.msg := by
          intro f h1 d hd k hk
          obtain ⟨t, h4, h5⟩ := ho.fr f (by rw [hf]; exact List.mem_cons_of_mem _ h1) d hd k hk
          exact ⟨t, h4, hlog _ _ h5⟩
        cases rest with
        | nil =>
          rw [deliver_ret hf] at hnum ⊢
          refine ⟨hfs, fun D m hm => hlog _ _ (ho.snd D m hm), hnum _ (fun k => ?_)⟩
          rw [if_neg nofun, Nat.zero_add]
          rfl
        | cons d ds =>
          have hhead : ∀ d' ∈ d :: ds, ∀ k, d'.cb = .tap k → ∃ t, (world ops).taps[k]? = some t ∧ Logged (ops ++ [.deliver]) t.dest m := by
            intro d' hd' k hk
            obtain ⟨t, h4, h5⟩ := ho.fr ⟨m, d :: ds⟩ (by rw [hf]; exact List.mem_cons_self) d' hd' k hk
            exact ⟨t, h4, hlog _ _ h5⟩
          have hw : ∀ r, (∀ m, r ≠ .returned m) → (world ops).step (.deliver, r) = world ops := by
            intro r hr
            cases r with
            | returned m => exact absurd rfl (hr m)
            | _ => rfl
          have hframes := (deliver_call hf).2
          have hres := (deliver_call hf).1
          rw [hw _ (by intro m'; rw [hres, callOf]; split <;> nofun)]
          have hfr2 : ∀ f ∈ (⟨m, ds⟩ :: fs : List Frame), ∀ d ∈ f.rest, ∀ k, d.cb = .tap k →
              ∃ t, (world ops).taps[k]? = some t ∧ Logged (ops ++ [.deliver]) t.dest f.msg := by
            intro f h1 d' hd' k hk
            rcases List.mem_cons.1 h1 with rfl | h1
            · exact hhead d' (List.mem_cons_of_mem _ hd') k hk
            · exact hfs f h1 d' hd' k hk
          cases hcb : d.cb with
          | user k =>
            have e : step s .deliver = ({ s with frames := ⟨m, ds⟩ :: fs }, .called k d.pt m) := by
              show deliver s = _
              rw [deliver, hf]
              simp only [hcb]
            rw [e] at hnum ⊢
            refine ⟨hfr2, fun D m hm => hlog _ _ (ho.snd D m hm), hnum _ (fun k => ?_)⟩
            rw [if_neg nofun, Nat.zero_add]
            rfl
          | tap k =>
            obtain ⟨t, ht, hlt⟩ := hhead d List.mem_cons_self k hcb
            obtain ⟨num, hs⟩ := hi.tap k t ht
            have e : step s .deliver = ({ s with frames := ⟨m, ds⟩ :: fs, taps := s.taps.set k ⟨t.node, t.cat, t.dest, num + 1⟩, dests := upd s.dests t.dest ((s.dests t.dest).write m) }, .tapped k) := by
              show deliver s = _
              rw [deliver, hf]
              simp only [hcb]
              rw [send]
              simp only [hs]
            rw [e] at hnum ⊢
            refine ⟨hfr2, ?_, hnum _ (fun j => ?_)⟩
            · intro D m' hm'
              replace hm' : m' ∈ (upd s.dests t.dest ((s.dests t.dest).write m) D).out := hm'
              by_cases hD : D = t.dest
              · subst hD
                rw [upd_same, Dest.write] at hm'
                split at hm'
                · exact hlog _ _ (ho.snd _ m' hm')
                · rcases List.mem_append.1 hm' with y | y
                  · exact hlog _ _ (ho.snd _ m' y)
                  · rw [List.mem_singleton.1 y]
                    exact hlt
              · rw [upd_other _ _ hD] at hm'
                exact hlog _ _ (ho.snd _ m' hm')
            · refine Eq.trans ?_ (numOf_set (u := ⟨t.node, t.cat, t.dest, num + 1⟩) hs rfl j).symm
              by_cases ej : j = k
              · subst ej
                rw [if_pos rfl, if_pos rfl, numOf, hs]
                show 1 + num = num + 1
                omega
              · rw [if_neg (fun x => ej (Res.tapped.inj x).symm), if_neg ej, Nat.zero_add]
    | _ => exact hquiet rfl

/-! ### events -/

theorem flatMap_filterMap {α β γ} {f : α → List γ} {g : α → Option β} {h : β → List γ}
    : ∀ {l : List α}, (∀ a ∈ l, f a = match g a with | none => [] | some b => h b) → l.flatMap f = (l.filterMap g).flatMap h
  | [], _ => rfl
  | a :: l, H => by
    rw [List.flatMap_cons, List.filterMap_cons, flatMap_filterMap (fun b hb => H b (List.mem_cons_of_mem _ hb)), H a List.mem_cons_self]
    cases g a with
    | none => rfl
    | some b => rw [List.flatMap_cons]

theorem filterMap_nodup {l : List Ent} {g : Ent → Option (Nat × Nat)} (hg : ∀ e y, g e = some y → y.1 = e.id) :
    (l.map (·.id)).Nodup → ((l.filterMap g).map (·.1)).Nodup := by
  induction l with
  | nil => intro _; exact List.nodup_nil
  | cons e l ih =>
    intro h
    rw [List.map_cons, List.nodup_cons] at h
    rw [List.filterMap_cons]
    cases hge : g e with
    | none => exact ih h.2
    | some y =>
      simp only
      rw [List.map_cons, List.nodup_cons]
      refine ⟨fun hm => h.1 ?_, ih h.2⟩
      obtain ⟨z, hz, e1⟩ := List.mem_map.1 hm
      obtain ⟨e', he', h1⟩ := List.mem_filterMap.1 hz
      rw [← hg e y hge, ← e1, hg e' z h1]
      exact List.mem_map.2 ⟨e', he', rfl⟩

theorem ent_of_src {s w} (h : InvT s w) {i : Nat} {v} (hi : w.srcs i = some v) : ∃ e ∈ entsL [] s.roots, e.id = i := by
  have : i ∈ idsL s.roots := Classical.byContradiction fun x => by
    rw [(h.out i x).1] at hi; cases hi
  obtain ⟨e, he, h1⟩ := List.mem_map.1 this
  exact ⟨e, he, h1⟩

/-- the callbacks of a registration: `f` gives those of one source -/
theorem events_of {s w} (h : InvT s w) {d : Del} (hd : Single d.name) {ev : Ent → List Ev} {f : Nat → Nat → List Ev}
    (hev : ∀ e ∈ entsL [] s.roots, ev e = match e.src with
      | none => []
      | some x => if d.ty = x.ty ∧ Hit d e.ids ∧ catMatch d.name x.name = true then f e.id x.dels.length else []) :
    ∃ l : List (Nat × Nat), (l.map (·.1)).Nodup ∧ (∀ i, (∃ n, (i, n) ∈ l) ↔ w.Covers d i) ∧
      (∀ x ∈ l, ∃ o, w.Observers x.1 o ∧ o.length = x.2) ∧
      (entsL [] s.roots).flatMap ev = l.flatMap (fun x => f x.1 x.2) := by
  let g : Ent → Option (Nat × Nat) := fun e => match e.src with
    | none => none
    | some x => if d.ty = x.ty ∧ Hit d e.ids ∧ catMatch d.name x.name = true then some (e.id, x.dels.length) else none
  have hg : ∀ e y, g e = some y → y.1 = e.id ∧ ∃ x, e.src = some x ∧ y.2 = x.dels.length ∧
      (d.ty = x.ty ∧ Hit d e.ids ∧ catMatch d.name x.name = true) := by
    intro e y hy
    simp only [g] at hy
    split at hy
    · cases hy
    · rename_i x hx
      split at hy
      · rename_i hc
        cases hy
        exact ⟨rfl, x, hx, rfl, hc⟩
      · cases hy
  have hcov : ∀ e ∈ entsL [] s.roots, ∀ x, e.src = some x → (w.Covers d e.id ↔ d.ty = x.ty ∧ Hit d e.ids ∧ catMatch d.name x.name = true) := by
    intro e he x hx
    have hok := h.ents e he
    have hs := hok.srcs
    rw [hx] at hs
    exact covers_iff hs hd (chain_above hok.chain (by simp [Ent.ids, Ent.chain]))
  refine ⟨(entsL [] s.roots).filterMap g, filterMap_nodup (fun e y hy => (hg e y hy).1) h.nodup, ?_, ?_, ?_⟩
  · intro i
    constructor
    · rintro ⟨n, hn⟩
      obtain ⟨e, he, h1⟩ := List.mem_filterMap.1 hn
      obtain ⟨h2, x, h3, -, h4⟩ := hg e _ h1
      have h2 : i = e.id := h2
      rw [h2]
      exact (hcov e he x h3).2 h4
    · intro hc
      obtain ⟨nm, h1, -⟩ := id hc
      obtain ⟨e, he, rfl⟩ := ent_of_src h h1
      have hs := (h.ents e he).srcs
      rw [h1] at hs
      cases hx : e.src with
      | none => rw [hx] at hs; cases hs
      | some x =>
        refine ⟨x.dels.length, List.mem_filterMap.2 ⟨e, he, ?_⟩⟩
        simp only [g, hx]
        rw [if_pos ((hcov e he x hx).1 hc)]
  · intro y hy
    obtain ⟨e, he, h1⟩ := List.mem_filterMap.1 hy
    obtain ⟨h2, x, h3, h4, -⟩ := hg e _ h1
    have hok := h.ents e he
    have hs := hok.srcs
    rw [h3] at hs
    refine ⟨x.dels, ?_, h4.symm⟩
    rw [h2]
    exact dels_observers h hs (hok.src x h3) (chain_above hok.chain (by simp [Ent.ids, Ent.chain]))
  · refine flatMap_filterMap (h := fun x : Nat × Nat => f x.1 x.2) (fun e he => ?_)
    rw [hev e he]
    simp only [g]
    cases e.src with
    | none => rfl
    | some x =>
      simp only
      split <;> rfl

theorem add_events {s w} (h : InvT s w) {d : Del} : ∀ e ∈ entsL [] s.roots, hitAddEv d e = match e.src with
      | none => []
      | some x => if d.ty = x.ty ∧ Hit d e.ids ∧ catMatch d.name x.name = true then gainEvents e.id x.dels.length else [] := by
  intro e he
  rw [hitAddEv, addEv]
  cases hx : e.src with
  | none => simp only [addHere]; split <;> rfl
  | some x =>
    have hok := ((h.ents e he).src x hx).obs
    simp only [addHere, any_canGen]
    by_cases h1 : Hit d e.ids
    · rw [if_pos h1]
      by_cases h2 : d.ty = x.ty ∧ catMatch d.name x.name = true
      · rw [if_pos h2, if_pos ⟨h2.1, h1, h2.2⟩]
        show (if x.observed then [] else [Ev.sole e.id (x.dels ++ [d]).length]) ++ [Ev.added e.id (x.dels ++ [d]).length] = _
        rw [hok, gainEvents]
        cases x.dels <;> simp
      · rw [if_neg h2, if_neg (fun y => h2 ⟨y.1, y.2.2⟩)]
    · rw [if_neg h1, if_neg (fun y => h1 y.2.1)]

theorem del_events {s w} (h : InvT s w) {d : Del} (hd : d ∈ w.regs) : ∀ e ∈ entsL [] s.roots, hitDelEv d e = match e.src with
      | none => []
      | some x => if d.ty = x.ty ∧ Hit d e.ids ∧ catMatch d.name x.name = true then lossEvents e.id x.dels.length else [] := by
  intro e he
  rw [hitDelEv, delEv]
  cases hx : e.src with
  | none => simp only [delHere]; split <;> rfl
  | some x =>
    have hsx := (h.ents e he).src x hx
    have hok := hsx.obs
    simp only [delHere, any_canGen]
    by_cases h1 : Hit d e.ids
    · rw [if_pos h1]
      by_cases h2 : d.ty = x.ty ∧ catMatch d.name x.name = true
      · rw [if_pos h2, if_pos ⟨h2.1, h1, h2.2⟩]
        have hmem : d ∈ x.dels := (hsx.mem d).2 ⟨hd, h2.1, h1, h2.2⟩
        have hlen : (x.dels.erase d).length = x.dels.length - 1 := List.length_erase_of_mem hmem
        have hpos : 0 < x.dels.length := List.length_pos_of_mem hmem
        show Ev.removed e.id (x.dels.erase d).length :: (if (x.observed && !!(x.dels.erase d).isEmpty) = true then [Ev.none e.id (x.dels.erase d).length] else []) = _
        rw [hok, lossEvents, hlen]
        have h3 : x.dels.isEmpty = false := by
          cases hh : x.dels with
          | nil => rw [hh] at hpos; simp at hpos
          | cons => rfl
        rw [h3]
        by_cases h4 : x.dels.length = 1
        · have h5 : (x.dels.erase d).isEmpty = true := by
            rw [List.isEmpty_iff_length_eq_zero, hlen, h4]
          rw [h5, if_pos h4, h4]
          rfl
        · have h5 : (x.dels.erase d).isEmpty = false := by
            rw [← Bool.not_eq_true, List.isEmpty_iff_length_eq_zero, hlen]
            omega
          rw [h5, if_neg h4]
          rfl
      · rw [if_neg h2, if_neg (fun y => h2 ⟨y.1, y.2.2⟩)]
    · rw [if_neg h1, if_neg (fun y => h1 y.2.1)]

/-! ### lists of names -/

theorem dropWhile_blanks {p : Char → Bool} : ∀ {a : Str} (r : Str), (∀ c ∈ a, p c = true) → (a ++ r).dropWhile p = r.dropWhile p
  | [], _, _ => rfl
  | c :: a, r, h => by
    rw [List.cons_append, List.dropWhile_cons, if_pos (h c (by simp))]
    exact dropWhile_blanks r (fun x hx => h x (List.mem_cons_of_mem _ hx))

theorem takeWhile_stop {p : Char → Bool} : ∀ {a : Str} (r : Str), (∀ c ∈ a, p c = true) → (∀ c u, r = c :: u → p c = false) →
    (a ++ r).takeWhile p = a ∧ (a ++ r).dropWhile p = r
  | [], [], _, _ => ⟨rfl, rfl⟩
  | [], c :: r, _, h => by
    have := h c r rfl
    simp [this]
  | c :: a, r, h, h2 => by
    obtain ⟨h3, h4⟩ := takeWhile_stop (a := a) r (fun x hx => h x (List.mem_cons_of_mem _ hx)) h2
    have := h c (by simp)
    simp [this, h3, h4]

theorem blank_sep {c : Char} (h : c = ' ' ∨ c = '\t') : isSep c = true ∧ isBlank c = true := by
  rcases h with rfl | rfl <;> decide

/-- one name off a list -/
theorem parse_one {a n b : Str} (ha : ∀ c ∈ a, isSep c = true) (hn : Single n) (h0 : n ≠ []) (hb : Blanks b) (r : Str)
    (hr : r = [] ∨ ∃ u, r = ',' :: u) :
    parseNames (a ++ n ++ b ++ r) = if r = [] then some [n] else (parseNames r).map (n :: ·) := by
  have hs : ∀ c ∈ n, (!isSep c) = true := fun c hc => by rw [single_sep hn hc]; rfl
  have hd : (a ++ n ++ b ++ r).dropWhile isSep = n ++ (b ++ r) := by
    rw [List.append_assoc, List.append_assoc, dropWhile_blanks _ ha]
    cases n with
    | nil => exact absurd rfl h0
    | cons c n =>
      rw [List.cons_append, List.dropWhile_cons, if_neg (by rw [single_sep hn (by simp)]; nofun)]
  have hbr : ∀ c u, b ++ r = c :: u → (!isSep c) = false := by
    intro c u e
    cases b with
    | nil =>
      rcases hr with rfl | ⟨u', rfl⟩
      · cases e
      · cases e; decide
    | cons c' b' =>
      cases e
      rw [(blank_sep (hb c (by simp))).1]; rfl
  obtain ⟨t1, t2⟩ := takeWhile_stop (p := fun c => !isSep c) (b ++ r) hs hbr
  have t3 : (b ++ r).dropWhile isBlank = r := by
    rw [dropWhile_blanks _ (fun c hc => (blank_sep (hb c hc)).2)]
    rcases hr with rfl | ⟨u', rfl⟩
    · rfl
    · rw [List.dropWhile_cons, if_neg (by decide)]
  rw [parseNames]
  split
  · rename_i h1
    rw [hd] at h1
    simp at h1
    exact absurd h1.1 h0
  · rename_i c u h1
    rw [hd] at h1
    simp only
    rw [← h1, t1]
    split
    · rename_i h2
      rw [t2, t3] at h2
      rw [if_pos h2]
    · rename_i c' u' h2
      rw [t2, t3] at h2
      rcases hr with rfl | ⟨u2, e⟩
      · cases h2
      · rw [h2] at e
        cases e
        rw [h2, if_pos (by decide), if_neg nofun]
        cases parseNames (',' :: u') <;> rfl

def parseTail (t : Str) : Option (List Str) :=
  match (t.dropWhile (fun x => !isSep x)).dropWhile isBlank with
  | [] => some [t.takeWhile (fun x => !isSep x)]
  | d :: v => if d == ',' then
      match parseNames (d :: v) with
      | some l => some (t.takeWhile (fun x => !isSep x) :: l)
      | none => none
    else none

theorem parse_step (s : Str) : parseNames s = if s.dropWhile isSep = [] then some [[]] else parseTail (s.dropWhile isSep) := by
  rw [parseNames]
  split
  · rename_i h
    rw [if_pos h]
  · rename_i c u h
    rw [if_neg (by rw [h]; nofun), h]
    simp only
    split
    · rename_i h2
      rw [parseTail, h2]
    · rename_i d v h2
      rw [parseTail, h2]
      rfl

theorem parse_comma (r : Str) : parseNames (',' :: r) = parseNames r := by
  have : (',' :: r).dropWhile isSep = r.dropWhile isSep := by
    rw [List.dropWhile_cons, if_pos (by decide)]
  rw [parse_step, parse_step r, this]

theorem parse_list : ∀ l : List (Str × Str × Str), l ≠ [] → Names l → parseNames (listText l) = some (l.map (·.2.1))
  | [], h, _ => absurd rfl h
  | [(a, n, b)], _, hn => by
    obtain ⟨h1, h2, h3, h4⟩ := hn _ List.mem_cons_self
    have := parse_one (fun c hc => (blank_sep (h1 c hc)).1) h2 h3 h4 [] (.inl rfl)
    rw [List.append_nil, if_pos rfl] at this
    exact this
  | (a, n, b) :: y :: r, _, hn => by
    obtain ⟨h1, h2, h3, h4⟩ := hn _ List.mem_cons_self
    have := parse_one (fun c hc => (blank_sep (h1 c hc)).1) h2 h3 h4 (',' :: listText (y :: r)) (.inr ⟨_, rfl⟩)
    rw [if_neg nofun, parse_comma, parse_list (y :: r) nofun (fun x hx => hn x (List.mem_cons_of_mem _ hx))] at this
    exact this

/-- registering a list: the sources that exist now -/
theorem register_list {s w} (h : InvT s w) {n cb ty name ensure} {names : List Str} (hp : parseNames name = some names)
    (hs : ∀ x ∈ names, Single x) (hn : n < s.next) {evs} (hr : (register s n cb ty name ensure true).2 = .events evs) (i : Nat) :
    (∃ c, Ev.added i c ∈ evs) ↔ ∃ x ∈ names, w.Covers ⟨cb, ty, n, x⟩ i := by
  cases ho : s.obsAt n with
  | none => exact absurd hn ((obsAt_none h n).1 ho)
  | some obs =>
    rw [register, ho] at hr
    simp only [hp] at hr
    split at hr
    · cases hr
    · split at hr
      · cases hr
      · replace hr := Res.events.inj hr
        generalize hd : (⟨cb, ty, n, name⟩ : Del) = d at *
        have hpt : d.pt = n := by rw [← hd]
        have hty : d.ty = ty := by rw [← hd]
        obtain ⟨r1, g1, e1, e2, e3, e4⟩ := modObs_ents h.gk n (· ++ [d]) (fun e he => (h.ents e he).pos)
        rw [e1] at hr
        have hgk : ({ s with roots := r1, gobs := g1 } : State).gkids = [] := h.gk
        obtain ⟨r2, f1, f2, f3⟩ := bcast_ents (d := d) hgk (fun ab t => ents_bcastAdd d names ab t)
        rw [hpt] at f3
        rw [f3, e2, List.flatMap_map] at hr
        rw [← hr]
        have hcov : ∀ e ∈ entsL [] s.roots, ∀ x, e.src = some x → ∀ y ∈ names,
            (w.Covers ⟨cb, ty, n, y⟩ e.id ↔ ty = x.ty ∧ Hit d e.ids ∧ catMatch y x.name = true) := by
          intro e he x hx y hy
          have hok := h.ents e he
          have hsr := hok.srcs
          rw [hx] at hsr
          rw [Hit, hpt]
          exact covers_iff hsr (d := ⟨cb, ty, n, y⟩) (hs y hy) (chain_above hok.chain (by simp [Ent.ids, Ent.chain]))
        have hany : ∀ x : Src, names.any (canGen (some x) d.ty) = true ↔ ∃ y ∈ names, ty = x.ty ∧ catMatch y x.name = true := by
          intro x
          rw [List.any_eq_true]
          refine exists_congr fun y => and_congr Iff.rfl ?_
          rw [canGen, Bool.and_eq_true, beq_iff_eq, hty]
          exact and_congr ⟨Eq.symm, Eq.symm⟩ Iff.rfl
        constructor
        · rintro ⟨c, hc⟩
          obtain ⟨e, he, h1⟩ := List.mem_flatMap.1 hc
          rw [modEnt_ids] at h1
          split at h1
          · rename_i hh
            rw [addEv_mod, addEv] at h1
            cases hx : e.src with
            | none => rw [hx] at h1; cases h1
            | some x =>
              rw [hx, addHere] at h1
              split at h1
              · rename_i ha
                obtain ⟨y, hy, h2, h3⟩ := (hany x).1 ha
                refine ⟨y, hy, ?_⟩
                have h4 : i = e.id := by
                  rcases List.mem_append.1 h1 with h5 | h5
                  · split at h5
                    · cases h5
                    · have := List.mem_singleton.1 h5
                      cases this
                  · exact (Ev.added.inj (List.mem_singleton.1 h5)).1
                rw [h4]
                exact (hcov e he x hx y hy).2 ⟨h2, hh, h3⟩
              · cases h1
          · cases h1
        · rintro ⟨y, hy, hc⟩
          obtain ⟨nm, h1, -⟩ := id hc
          obtain ⟨e, he, rfl⟩ := ent_of_src h h1
          have hsr := (h.ents e he).srcs
          rw [h1] at hsr
          cases hx : e.src with
          | none => rw [hx] at hsr; cases hsr
          | some x =>
            obtain ⟨h2, h3, h4⟩ := (hcov e he x hx y hy).1 hc
            refine ⟨(x.dels ++ [d]).length, List.mem_flatMap.2 ⟨e, he, ?_⟩⟩
            rw [modEnt_ids, if_pos h3, addEv_mod, addEv, hx, addHere, if_pos ((hany x).2 ⟨y, hy, h2, h4⟩)]
            exact List.mem_append.2 (.inr (List.mem_singleton.2 rfl))

end Sparta.Notify
