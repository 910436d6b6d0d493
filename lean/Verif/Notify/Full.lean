import Verif.Notify.Steps
/-! The whole state against what the user knows. -/
namespace Sparta.Notify
open Sparta.Strings (Str)
open Sparta.PTree (Glob OkName patMatches)

structure Inv (b : Bool) (s : State) (w : World) : Prop where
  t : InvT s w
  pub : b = true → pubL s.roots
  tlen : s.taps.length = w.taps.length
  tap : ∀ (k : Nat) (t : STap), w.taps[k]? = some t → ∃ num, s.taps[k]? = some ⟨t.node, t.cat, t.dest, num⟩
  tsingle : ∀ (k : Nat) (t : STap), w.taps[k]? = some t → Single t.cat
  treg : ∀ (k : Nat) (d : Del), d.cb = .tap k → (d ∈ w.regs ↔ ∃ t, w.taps[k]? = some t ∧ d ∈ tapDel k t)
  seq : s.seq = w.msgs
  pend : s.frames.map (·.msg.ty) = w.pending

theorem inv_init (b) : Inv b init World.init := by
  refine ⟨⟨rfl, ?_, List.nodup_nil, ?_, ?_, List.nodup_nil, ?_, ?_, ?_, by decide⟩, fun _ => trivial, rfl, ?_, ?_, ?_, rfl, rfl⟩
  · intro e he; cases he
  · intro i
    simp only [init, idsL, entsL, List.map_nil, List.not_mem_nil, false_iff]
    omega
  · exact ⟨List.nodup_nil, fun d => by simp [init, World.init]⟩
  · intro d hd; cases hd
  · intro d hd; cases hd
  · intro i _; exact ⟨rfl, rfl, rfl⟩
  · intro k t h; simp [World.init] at h
  · intro k t h; simp [World.init] at h
  · intro k d _; simp [World.init]

/-- calls by users leave the registrations of taps alone -/
theorem treg_user {w : World} {r : List Del} {u : Nat}
    (h : ∀ (k : Nat) (d : Del), d.cb = .tap k → (d ∈ w.regs ↔ ∃ t, w.taps[k]? = some t ∧ d ∈ tapDel k t))
    (hr : ∀ d, d.cb ≠ .user u → (d ∈ r ↔ d ∈ w.regs)) :
    ∀ (k : Nat) (d : Del), d.cb = .tap k → (d ∈ r ↔ ∃ t, w.taps[k]? = some t ∧ d ∈ tapDel k t) := by
  intro k d hd
  rw [hr d (by rw [hd]; nofun), h k d hd]

theorem mem_tapDel {k : Nat} {t : STap} {d : Del} : d ∈ tapDel k t ↔ ∃ n, t.node = some n ∧ d = ⟨.tap k, 0, n, t.cat⟩ := by
  rw [tapDel]
  cases t.node <;> simp

/-- the registrations without those of a tap -/
theorem erase_tap {w : World} {k : Nat} {t : STap} {n : Nat} (hr : w.regs.Nodup)
    (h : ∀ (d : Del), d.cb = .tap k → (d ∈ w.regs ↔ ∃ t, w.taps[k]? = some t ∧ d ∈ tapDel k t))
    (ht : w.taps[k]? = some t) (hn : t.node = some n) :
    w.regs.erase ⟨.tap k, 0, n, t.cat⟩ = w.regs.filter (fun d => d.cb != .tap k) := by
  rw [hr.erase_eq_filter]
  refine List.filter_congr (fun d hd => ?_)
  by_cases hc : d.cb = .tap k
  · obtain ⟨t', h1, h2⟩ := (h d hc).1 hd
    rw [ht] at h1
    cases h1
    obtain ⟨n', h3, rfl⟩ := mem_tapDel.1 h2
    rw [hn] at h3
    cases h3
    simp
  · have : d ≠ ⟨.tap k, 0, n, t.cat⟩ := fun e => hc (by rw [e])
    rw [bne_iff_ne.2 hc, bne_iff_ne.2 this]

theorem filter_tap_none {w : World} {k : Nat} {t : STap}
    (h : ∀ (d : Del), d.cb = .tap k → (d ∈ w.regs ↔ ∃ t, w.taps[k]? = some t ∧ d ∈ tapDel k t))
    (ht : w.taps[k]? = some t) (hn : t.node = none) :
    w.regs.filter (fun d => d.cb != .tap k) = w.regs := by
  rw [List.filter_eq_self]
  intro d hd
  by_cases hc : d.cb = .tap k
  · obtain ⟨t', h1, h2⟩ := (h d hc).1 hd
    rw [ht] at h1
    cases h1
    obtain ⟨n', h3, -⟩ := mem_tapDel.1 h2
    rw [hn] at h3
    cases h3
  · simp [hc]

/-- a tap is taken off -/
theorem detach_inv {b s w} (h : Inv b s w) {k : Nat} {t : STap} {tp : Tap} (ht : w.taps[k]? = some t)
    (hn : tp.node = t.node) (hc : tp.cat = t.cat) :
    ∃ r g, (detach s k tp).1.roots = r ∧ (detach s k tp).1.gobs = g ∧
      (detach s k tp).1 = { s with roots := r, gobs := g, taps := (detach s k tp).1.taps } ∧
      InvT { s with roots := r, gobs := g } { w with regs := w.regs.filter (fun d => d.cb != .tap k) } ∧
      (pubL s.roots → pubL r) ∧ ((detach s k tp).1.taps = s.taps ∧ tp.node = none ∨ (detach s k tp).1.taps = s.taps.set k { tp with node := none }) ∧
      (detach s k tp).2 ≠ .error ∧ (detach s k tp).2 ≠ .undefined := by
  have hk := fun d => h.treg k d
  cases hnode : t.node with
  | none =>
    rw [detach, hn, hnode]
    refine ⟨s.roots, s.gobs, rfl, rfl, rfl, ?_, id, .inl ⟨rfl, hnode ▸ rfl⟩, nofun, nofun⟩
    rw [filter_tap_none hk ht hnode]
    exact h.t
  | some n =>
    have hd : (⟨.tap k, 0, n, t.cat⟩ : Del) ∈ w.regs := (h.treg k _ rfl).2 ⟨t, ht, mem_tapDel.2 ⟨n, hnode, rfl⟩⟩
    have := deregister_inv h.t (cb := .tap k) (ty := 0) (n := n) (all := true) (h.tsingle k t ht) (.inl rfl) (h.t.rpt _ hd)
    rw [if_pos hd] at this
    obtain ⟨r, g, e1, e2, e3⟩ := this
    rw [detach, hn, hnode, hc]
    simp only [e1]
    refine ⟨r, g, rfl, rfl, rfl, ?_, e3, .inr trivial, nofun, nofun⟩
    rw [erase_tap h.t.rnodup hk ht hnode] at e2
    exact e2

theorem inv_taps {w : World} {taps : List Tap} {k : Nat} {t : STap} {m : Option Nat} {c : Tap}
    (tap : ∀ (k : Nat) (t : STap), w.taps[k]? = some t → ∃ num, taps[k]? = some ⟨t.node, t.cat, t.dest, num⟩)
    (hlt : k < taps.length) (hc : c.node = m ∧ c.cat = t.cat ∧ c.dest = t.dest) (taps' : List Tap)
    (h1 : taps'[k]? = some c) (h2 : ∀ j, j ≠ k → taps'[j]? = taps[j]?) :
    ∀ (j : Nat) (t' : STap), (w.taps.set k { t with node := m })[j]? = some t' → ∃ num, taps'[j]? = some ⟨t'.node, t'.cat, t'.dest, num⟩ := by
  intro j t' hj
  by_cases e : j = k
  · subst e
    rw [List.getElem?_set_self'] at hj
    cases hw : w.taps[j]? with
    | none => rw [hw] at hj; cases hj
    | some t0 =>
      rw [hw] at hj
      cases hj
      obtain ⟨hc1, hc2, hc3⟩ := hc
      exact ⟨c.num, by rw [h1]; cases c; simp_all⟩
  · rw [List.getElem?_set_ne (Ne.symm e)] at hj
    rw [h2 j e]
    exact tap j t' hj

theorem tapReset_inv {b s w} (h : Inv b s w) (k : Nat) (n : Option Nat) :
    Inv b (tapReset s k n).1 (w.step (.tapReset k n, (tapReset s k n).2)) ∧
    (tapReset s k n).2 ≠ .error ∧
    ((tapReset s k n).2 = .undefined → k ≥ w.taps.length ∨ ∃ m, n = some m ∧ m ≥ s.next) ∧
    (tapReset s k n).1.frames = s.frames ∧ (tapReset s k n).1.dests = s.dests := by
  cases ht : w.taps[k]? with
  | none =>
    have hs : s.taps[k]? = none := by
      rw [List.getElem?_eq_none_iff] at ht ⊢
      rw [h.tlen]; exact ht
    rw [tapReset, hs]
    exact ⟨h, nofun, fun _ => .inl (List.getElem?_eq_none_iff.1 ht), rfl, rfl⟩
  | some t =>
    obtain ⟨num, hs⟩ := h.tap k t ht
    have hlt : k < s.taps.length := by
      rcases Nat.lt_or_ge k s.taps.length with x | x
      · exact x
      · rw [List.getElem?_eq_none_iff.2 x] at hs; cases hs
    obtain ⟨r, g, a1, a2, e1, e2, e3, e4, e5, e6⟩ := detach_inv h (tp := ⟨t.node, t.cat, t.dest, num⟩) ht rfl rfl
    rw [tapReset, hs]
    simp only
    rw [if_neg (by rintro (x | x) <;> contradiction)]
    have hwl : k < w.taps.length := by rw [← h.tlen]; exact hlt
    have htapk : ∀ (m : Option Nat) (j : Nat) (d : Del), d.cb = .tap j →
        (d ∈ w.regs.filter (fun d => d.cb != .tap k) ++ tapDel k { t with node := m } ↔
          ∃ t', (w.taps.set k { t with node := m })[j]? = some t' ∧ d ∈ tapDel j t') := by
      intro m j d hd
      rw [List.mem_append, List.mem_filter]
      by_cases e : j = k
      · subst e
        have h3 : (w.taps.set j { t with node := m })[j]? = some { t with node := m } := by
          rw [List.getElem?_set_self hwl]
        rw [h3]
        simp [hd]
      · have h3 : (d.cb != .tap k) = true := by rw [hd]; simp [e]
        rw [h3, List.getElem?_set_ne (Ne.symm e), h.treg j d hd]
        constructor
        · rintro (⟨x, -⟩ | x)
          · exact x
          · obtain ⟨n', -, rfl⟩ := mem_tapDel.1 x
            exact absurd (Cb.tap.inj hd).symm e
        · intro x
          exact .inl ⟨x, rfl⟩
    have hsing : ∀ (m : Option Nat) (j : Nat) (t' : STap), (w.taps.set k { t with node := m })[j]? = some t' → Single t'.cat := by
      intro m j t' hj
      by_cases e : j = k
      · subst e
        rw [List.getElem?_set_self hwl] at hj
        cases hj
        exact (show Single t.cat from h.tsingle j t ht)
      · rw [List.getElem?_set_ne (Ne.symm e)] at hj
        exact h.tsingle j t' hj
    have hget : ∀ c : Tap, (s.taps.set k c)[k]? = some c := fun c => List.getElem?_set_self hlt
    have hgetn : ∀ (c : Tap) j, j ≠ k → (s.taps.set k c)[j]? = s.taps[j]? := fun c j e => List.getElem?_set_ne (Ne.symm e)
    cases n with
    | none =>
      have hw : w.step (.tapReset k none, (detach s k ⟨t.node, t.cat, t.dest, num⟩).2) =
          { w with taps := w.taps.set k { t with node := none },
                   regs := w.regs.filter (fun d => d.cb != .tap k) ++ tapDel k { t with node := none } } := by
        generalize (detach s k ⟨t.node, t.cat, t.dest, num⟩).2 = res at e5 e6
        cases res <;> first | exact absurd rfl e5 | exact absurd rfl e6 | simp only [World.step, ht]
      simp only
      rw [hw]
      refine ⟨⟨?_, ?_, ?_, ?_, hsing none, htapk none, ?_, ?_⟩, e5, fun x => absurd x e6, ?_, ?_⟩
      · refine e2.congr ?_ ?_ ?_ ?_ rfl rfl ?_ rfl
        · rw [e1]
        · rw [e1]
        · rw [e1]
        · rw [e1]
        · simp [tapDel]
      · intro hb
        rw [a1]
        exact e3 (h.pub hb)
      · rcases e4 with ⟨x, -⟩ | x
        · rw [x, List.length_set]; exact h.tlen
        · rw [x, List.length_set, List.length_set]; exact h.tlen
      · rcases e4 with ⟨x, y⟩ | x
        · rw [x]
          exact inv_taps (t := t) (c := ⟨t.node, t.cat, t.dest, num⟩) h.tap hlt ⟨y, rfl, rfl⟩ _ hs (fun j _ => rfl)
        · rw [x]
          exact inv_taps (t := t) (c := ⟨none, t.cat, t.dest, num⟩) h.tap hlt ⟨rfl, rfl, rfl⟩ _ (hget _) (hgetn _)
      · rw [e1]; exact h.seq
      · rw [e1]; exact h.pend
      · rw [e1]
      · rw [e1]
    | some m =>
      simp only
      split
      · rename_i hon
        refine ⟨h, nofun, fun _ => .inr ⟨m, rfl, ?_⟩, rfl, rfl⟩
        rw [Option.isNone_iff_eq_none, e1] at hon
        have := (obsAt_none (e2.congr (s' := { s with roots := r, gobs := g, taps := (detach s k ⟨t.node, t.cat, t.dest, num⟩).1.taps })
          rfl rfl rfl rfl rfl rfl rfl rfl) m).1 hon
        exact Nat.le_of_not_lt this
      · rename_i hon
        rw [Option.isNone_iff_eq_none, e1] at hon
        have hm : m < s.next := by
          have := (obsAt_none (e2.congr (s' := { s with roots := r, gobs := g, taps := (detach s k ⟨t.node, t.cat, t.dest, num⟩).1.taps })
            rfl rfl rfl rfl rfl rfl rfl rfl) m)
          exact Classical.byContradiction fun x => hon (this.2 x)
        have htset : ∀ c : Tap, ((detach s k ⟨t.node, t.cat, t.dest, num⟩).1.taps.set k c) = s.taps.set k c := by
          intro c
          rcases e4 with ⟨x, -⟩ | x
          · rw [x]
          · rw [x, List.set_set]
        rw [htset, e1]
        have hst := e2.congr (s' := { s with roots := r, gobs := g, taps := s.taps.set k ⟨some m, t.cat, t.dest, num⟩ })
            rfl rfl rfl rfl rfl rfl rfl rfl
        have hreg := register_inv hst (cb := .tap k) (ty := 0) (n := m) (ensure := false) (all := true) (h.tsingle k t ht) (.inl rfl) hm
        rw [if_neg] at hreg
        · obtain ⟨r', g', f1, f2, f3⟩ := hreg
          rw [show register _ m (.tap k) 0 t.cat false true = _ from f1]
          have hw : ∀ l, w.step (.tapReset k (some m), .events l) =
            { w with taps := w.taps.set k { t with node := some m },
                     regs := w.regs.filter (fun d => d.cb != .tap k) ++ tapDel k { t with node := some m } } := by
            intro l; simp [World.step, ht]
          rw [hw]
          refine ⟨⟨f2.congr rfl rfl rfl rfl rfl rfl rfl rfl, fun hb => f3 (e3 (h.pub hb)), ?_, ?_, hsing (some m), htapk (some m), h.seq, h.pend⟩,
            nofun, nofun, rfl, rfl⟩
          · show (s.taps.set k _).length = (w.taps.set k _).length
            rw [List.length_set, List.length_set]; exact h.tlen
          · exact inv_taps (t := t) (c := ⟨some m, t.cat, t.dest, num⟩) h.tap hlt ⟨rfl, rfl, rfl⟩ _ (hget _) (hgetn _)
        · rintro (x | x)
          · cases x
          · have := (List.mem_filter.1 x).2
            simp at this

/-- sending through a tap -/
theorem send_inv {b s w} (h : Inv b s w) (k : Nat) (m : Msg) (fr : List Frame) (hf : fr.map (·.msg.ty) = w.pending) :
    Inv b (send { s with frames := fr } k m) w ∧ (send { s with frames := fr } k m).frames = fr := by
  rw [send]
  show Inv b (match s.taps[k]? with | none => _ | some t => _) w ∧ _
  cases hs : s.taps[k]? with
  | none => 
    simp only
    exact ⟨⟨h.t.congr rfl rfl rfl rfl rfl rfl rfl rfl, h.pub, h.tlen, h.tap, h.tsingle, h.treg, h.seq, hf⟩, trivial⟩
  | some t =>
    simp only
    refine ⟨⟨h.t.congr rfl rfl rfl rfl rfl rfl rfl rfl, h.pub, ?_, ?_, h.tsingle, h.treg, h.seq, hf⟩, trivial⟩
    · show (s.taps.set k _).length = _
      rw [List.length_set]; exact h.tlen
    · intro j t' hj
      obtain ⟨num, hn⟩ := h.tap j t' hj
      by_cases e : j = k
      · subst e
        rw [hs] at hn
        cases hn
        refine ⟨num + 1, ?_⟩
        have hlt : j < s.taps.length := by
          rcases Nat.lt_or_ge j s.taps.length with x | x
          · exact x
          · rw [List.getElem?_eq_none_iff.2 x] at hs; cases hs
        exact List.getElem?_set_self hlt
      · exact ⟨num, by rw [← hn]; exact List.getElem?_set_ne (Ne.symm e)⟩

theorem get_src {s w} (h : InvT s w) (i : Nat) : (∃ x, (s.get i).bind Tree.src = some x ∧ w.srcs i = some (x.ty, x.name) ∧ x.posts = w.posts i ∧
      ∃ ids, SrcOK w.regs ids x ∧ ∀ a, Above w.par a i ↔ a ∈ ids) ∨
    ((s.get i).bind Tree.src = none ∧ w.srcs i = none) := by
  cases hg : s.get i with
  | none =>
    right
    refine ⟨rfl, (h.out i ?_).1⟩
    rw [h.ids, ← get_none h]
    exact hg
  | some t =>
    obtain ⟨e, he, h1, h2, h3⟩ := get_some h hg
    have hok := h.ents e he
    have hs := hok.srcs
    rw [h1, h3] at hs
    cases hsrc : t.src with
    | none =>
      right
      rw [hsrc] at hs
      exact ⟨hsrc, hs⟩
    | some x =>
      left
      rw [hsrc] at hs h3
      refine ⟨x, hsrc, hs, by rw [← h1]; exact hok.posts x h3, e.ids, hok.src x h3, ?_⟩
      exact chain_above hok.chain (by simp [Ent.ids, Ent.chain, h1])

/-- one legal call -/
theorem inv_step {b s w} (h : Inv b s w) (o : Op) (hp : o.Plain) (hb : (b = true ∧ o.isPrivate = false) ∨ o.reachesAll = true ∧ b = false) :
    Inv b (step s o).1 (w.step (o, (step s o).2)) := by
  have hall : ∀ {all : Bool}, (b = true ∨ all = true) → (all = true ∨ pubL s.roots) := by
    rintro all (x | x)
    · exact .inr (h.pub x)
    · exact .inl x
  cases o with
  | node =>
    refine ⟨node_inv h.t, fun x => (pubL_append _ _).2 ⟨h.pub x, ⟨rfl, trivial⟩, trivial⟩, h.tlen, h.tap, h.tsingle, h.treg, h.seq, h.pend⟩
  | source p ty name =>
    rw [step]
    split
    · have := newSource_inv h.t (ty := ty) (name := name) hp
      split at this
      · obtain ⟨h1, h2, r, h3, h4⟩ := this
        rw [h1]
        have ht : (newSource s p ty name).1.taps = s.taps := by rw [h3]
        refine ⟨h2, fun x => ?_, by rw [ht]; exact h.tlen, by rw [ht]; exact h.tap, h.tsingle, h.treg, by rw [h3]; exact h.seq, by rw [h3]; exact h.pend⟩
        rw [h3]
        exact h4 (h.pub x)
      · rw [this]
        exact h
    · exact h
  | addChild p c =>
    rw [step]
    split
    · obtain ⟨h1, h2, ⟨r, g, h3⟩, h4⟩ := addChild_inv h.t (c := c) hp
      by_cases hr : (addChild s p c).2 = .ok
      · obtain ⟨h5, h6⟩ := h1 hr
        rw [hr]
        have ht : (addChild s p c).1.taps = s.taps := by rw [h3]
        refine ⟨h5, fun x => h6 (h.pub x), by rw [ht]; exact h.tlen, by rw [ht]; exact h.tap, h.tsingle, h.treg, by rw [h3]; exact h.seq, by rw [h3]; exact h.pend⟩
      · rw [h2 hr]
        have : w.step (.addChild p c, (addChild s p c).2) = w := by
          rcases h4 with x | x | x
          · exact absurd x hr
          · rw [x]; rfl
          · rw [x]; rfl
        rw [this]
        exact h
    · exact h
  | makePrivate n =>
    rw [step]
    split
    · exact h
    · obtain ⟨r, h1, h2⟩ := private_inv h.t n
      simp only
      rw [h1]
      rcases hb with ⟨-, x⟩ | ⟨-, x⟩
      · cases x
      · exact ⟨h2, (fun y => by rw [x] at y; cases y), h.tlen, h.tap, h.tsingle, h.treg, h.seq, h.pend⟩
  | register n k ty name ensure all =>
    rw [step]
    split
    · by_cases hn : n < s.next
      · have := register_inv h.t (cb := .user k) (ty := ty) (ensure := ensure) (all := all) hp
          (hall (hb.elim (fun x => .inl x.1) (fun x => .inr x.1))) hn
        split at this
        · rw [this]
          exact h
        · obtain ⟨r, g, h1, h2, h3⟩ := this
          rw [h1]
          refine ⟨h2, fun x => h3 (h.pub x), h.tlen, h.tap, h.tsingle, ?_, h.seq, h.pend⟩
          refine treg_user (w := w) (u := k) h.treg (fun d hd => ?_)
          show d ∈ w.regs ++ [_] ↔ _
          rw [List.mem_append, List.mem_singleton]
          constructor
          · rintro (x | rfl)
            · exact x
            · exact absurd rfl hd
          · exact .inl
      · rw [register, (obsAt_none h.t n).2 hn]
        exact h
    · exact h
  | deregister n k ty name all =>
    rw [step]
    split
    · by_cases hn : n < s.next
      · have := deregister_inv h.t (cb := .user k) (ty := ty) (all := all) hp
          (hall (hb.elim (fun x => .inl x.1) (fun x => .inr x.1))) hn
        split at this
        · obtain ⟨r, g, h1, h2, h3⟩ := this
          rw [h1]
          refine ⟨h2, fun x => h3 (h.pub x), h.tlen, h.tap, h.tsingle, ?_, h.seq, h.pend⟩
          refine treg_user (w := w) (u := k) h.treg (fun d hd => ?_)
          show d ∈ w.regs.erase _ ↔ _
          rw [h.t.rnodup.mem_erase_iff]
          constructor
          · exact fun x => x.2
          · exact fun x => ⟨fun e => hd (by rw [e]), x⟩
        · rw [this]
          exact h
      · rw [deregister, (obsAt_none h.t n).2 hn]
        exact h
    · exact h
  | tap cat dest =>
    refine ⟨h.t.congr rfl rfl rfl rfl rfl rfl rfl rfl, h.pub, ?_, ?_, ?_, ?_, h.seq, h.pend⟩
    · show (s.taps ++ [_]).length = (w.taps ++ [_]).length
      simp [h.tlen]
    · intro k t hk
      replace hk : (w.taps ++ [⟨cat, dest, none⟩])[k]? = some t := hk
      show ∃ num, (s.taps ++ [_])[k]? = _
      rw [List.getElem?_append] at hk ⊢
      rw [h.tlen]
      split at hk
      · rename_i hlt
        rw [if_pos hlt]
        exact h.tap k t hk
      · rename_i hlt
        rw [if_neg hlt]
        cases hj : k - w.taps.length with
        | zero => rw [hj] at hk; cases hk; exact ⟨0, rfl⟩
        | succ => rw [hj] at hk; cases hk
    · intro k t hk
      replace hk : (w.taps ++ [⟨cat, dest, none⟩])[k]? = some t := hk
      rw [List.getElem?_append] at hk
      split at hk
      · exact h.tsingle k t hk
      · cases hj : k - w.taps.length with
        | zero => rw [hj] at hk; cases hk; exact hp
        | succ => rw [hj] at hk; cases hk
    · intro k d hd
      show d ∈ w.regs ↔ ∃ t, (w.taps ++ [⟨cat, dest, none⟩])[k]? = some t ∧ _
      rw [h.treg k d hd]
      constructor
      · rintro ⟨t, h1, h2⟩
        refine ⟨t, ?_, h2⟩
        rw [List.getElem?_append, if_pos]
        · exact h1
        · rcases Nat.lt_or_ge k w.taps.length with x | x
          · exact x
          · rw [List.getElem?_eq_none_iff.2 x] at h1; cases h1
      · rintro ⟨t, h1, h2⟩
        rw [List.getElem?_append] at h1
        split at h1
        · exact ⟨t, h1, h2⟩
        · cases hj : k - w.taps.length with
          | zero => rw [hj] at h1; cases h1; cases h2
          | succ => rw [hj] at h1; cases h1
  | tapReset k n =>
    rw [step]
    split
    · exact (tapReset_inv h k n).1
    · exact h
  | post i text =>
    show Inv b (post s i text).1 (w.step (.post i text, (post s i text).2))
    rw [post]
    rcases get_src h.t i with ⟨x, h1, h2, -⟩ | ⟨h1, h2⟩
    · simp only [h1]
      obtain ⟨r, h3, h4, h5⟩ := bump_inv h.t h1
      rw [h3]
      have hw : w.step (.post i text, .ok) = { w with msgs := (if x.ty = 0 then w.msgs + 1 else w.msgs), pending := x.ty :: w.pending, posts := upd w.posts i (w.posts i + 1) } := by simp [World.step, h2]
      rw [hw]
      refine ⟨h4.congr rfl rfl rfl rfl rfl rfl rfl rfl, fun y => h5 (h.pub y), h.tlen, h.tap, h.tsingle, h.treg, ?_, ?_⟩
      · show (if x.ty = 0 then s.seq + 1 else s.seq) = if x.ty = 0 then w.msgs + 1 else w.msgs
        rw [h.seq]
      · show x.ty :: s.frames.map _ = x.ty :: w.pending
        rw [h.pend]
    · simp only [h1]
      exact h
  | deliver =>
    show Inv b (deliver s).1 (w.step (.deliver, (deliver s).2))
    rw [deliver]
    have hpe := h.pend
    split
    · exact h
    · rename_i m fs hf
      rw [hf] at hpe
      refine ⟨h.t.congr rfl rfl rfl rfl rfl rfl rfl rfl, h.pub, h.tlen, h.tap, h.tsingle, h.treg, h.seq, ?_⟩
      show fs.map _ = w.pending.tail
      rw [← hpe]
      rfl
    · rename_i m d ds fs hf
      rw [hf] at hpe
      split
      · exact ⟨h.t.congr rfl rfl rfl rfl rfl rfl rfl rfl, h.pub, h.tlen, h.tap, h.tsingle, h.treg, h.seq, hpe⟩
      · exact (send_inv h _ m (⟨m, ds⟩ :: fs) hpe).1
  | observed i =>
    show Inv b (match (s.get i).bind Tree.src with | none => _ | some x => _ : State × Res).1 _
    rcases get_src h.t i with ⟨x, h1, -⟩ | ⟨h1, h2⟩
    · simp only [step, h1]
      exact h
    · simp only [step, h1]
      exact h

/-! ### histories -/

def track (s : State) (w : World) : List Op → State × World
  | [] => (s, w)
  | o :: os => track (step s o).1 (w.step (o, (step s o).2)) os

theorem track_eq (ops : List Op) : ∀ s w, track s w ops = ((runOps step s ops).1, (ops.zip (runOps step s ops).2).foldl World.step w) := by
  induction ops with
  | nil => intro s w; rfl
  | cons o os ih => intro s w; rw [track, ih]; rfl

theorem track_init (ops : List Op) : track init World.init ops = ((runOps step init ops).1, world ops) := track_eq ops _ _

theorem track_append (a b : List Op) : ∀ s w, track s w (a ++ b) = track (track s w a).1 (track s w a).2 b := by
  induction a with
  | nil => intro s w; rfl
  | cons o os ih => intro s w; exact ih _ _

theorem inv_track {b : Bool} (ops : List Op) : ∀ s w, Inv b s w → (∀ o ∈ ops, o.Plain) →
    (∀ o ∈ ops, (b = true ∧ o.isPrivate = false) ∨ o.reachesAll = true ∧ b = false) → Inv b (track s w ops).1 (track s w ops).2 := by
  induction ops with
  | nil => intro s w h _ _; exact h
  | cons o os ih =>
    intro s w h h1 h2
    exact ih _ _ (inv_step h o (h1 o (by simp)) (h2 o (by simp))) (fun o' h' => h1 o' (List.mem_cons_of_mem _ h'))
      (fun o' h' => h2 o' (List.mem_cons_of_mem _ h'))

theorem inv_legal {ops : List Op} (h : Legal ops) : ∃ b, Inv b (runOps step init ops).1 (world ops) := by
  have := track_init ops
  rcases h.2 with h2 | h2
  · have := inv_track (b := true) ops init World.init (inv_init _) h.1 (fun o ho => .inl ⟨rfl, h2 o ho⟩)
    rw [track_init] at this
    exact ⟨true, this⟩
  · have := inv_track (b := false) ops init World.init (inv_init _) h.1 (fun o ho => .inr ⟨h2 o ho, rfl⟩)
    rw [track_init] at this
    exact ⟨false, this⟩

theorem inv_quiet {ops : List Op} (h : ∀ o ∈ ops, o.Plain) (h2 : ∀ o ∈ ops, o.isPrivate = false) :
    Inv true (runOps step init ops).1 (world ops) := by
  have := inv_track (b := true) ops init World.init (inv_init _) h (fun o ho => .inl ⟨rfl, h2 o ho⟩)
  rw [track_init] at this
  exact this

end Sparta.Notify
