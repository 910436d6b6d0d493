import Verif.Notify.Full
/-! Destinations, and what single calls answer. -/
namespace Sparta.Notify
open Sparta.Strings (Str)
open Sparta.PTree (Glob OkName patMatches)

theorem snoc_induction {α} {P : List α → Prop} (h0 : P []) (h1 : ∀ l a, P l → P (l ++ [a])) (l : List α) : P l := by
  have : ∀ r : List α, P r.reverse := by
    intro r
    induction r with
    | nil => exact h0
    | cons a r ih => rw [List.reverse_cons]; exact h1 _ _ ih
  have h := this l.reverse
  rwa [List.reverse_reverse] at h

abbrev stateOf (ops : List Op) : State := (runOps step init ops).1

theorem state_snoc (ops o) : stateOf (ops ++ [o]) = (step (stateOf ops) o).1 := by
  show (runOps step init (ops ++ [o])).1 = _
  rw [runOps_append]
  rfl

theorem res_snoc (ops o) : (runOps step init (ops ++ [o])).2 = (runOps step init ops).2 ++ [(step (stateOf ops) o).2] := by
  rw [runOps_append_snd]
  rfl

theorem world_snoc (ops o) : world (ops ++ [o]) = (world ops).step (o, (step (stateOf ops) o).2) := by
  have h1 := track_init (ops ++ [o])
  rw [track_append, track_init] at h1
  exact (congrArg Prod.snd h1).symm

theorem res_length {σ ο ρ : Type _} (step : σ → ο → σ × ρ) (ops : List ο) : ∀ s, (runOps step s ops).2.length = ops.length := by
  induction ops with
  | nil => intro s; rfl
  | cons o os ih => intro s; simp [runOps, ih]

theorem legal_snoc {ops o} (h : Legal (ops ++ [o])) : Legal ops ∧ o.Plain := by
  refine ⟨⟨fun o' h' => h.1 o' (by simp [h']), ?_⟩, h.1 o (by simp)⟩
  rcases h.2 with h2 | h2
  · exact .inl fun o' h' => h2 o' (by simp [h'])
  · exact .inr fun o' h' => h2 o' (by simp [h'])

/-! ### calls that deliver nothing -/

theorem modify_keep (s : State) (n f g) : (s.modify n f g).frames = s.frames ∧ (s.modify n f g).seq = s.seq ∧ (s.modify n f g).dests = s.dests ∧
    (s.modify n f g).taps = s.taps ∧ (s.modify n f g).next = s.next := ⟨rfl, rfl, rfl, rfl, rfl⟩

theorem modObs_keep (s : State) (n f) : (s.modObs n f).frames = s.frames ∧ (s.modObs n f).seq = s.seq ∧ (s.modObs n f).dests = s.dests ∧
    (s.modObs n f).taps = s.taps ∧ (s.modObs n f).next = s.next := by
  rw [State.modObs]
  split
  · exact ⟨rfl, rfl, rfl, rfl, rfl⟩
  · exact ⟨rfl, rfl, rfl, rfl, rfl⟩

theorem bcast_keep (s : State) (n f) : (s.bcast n f).1.frames = s.frames ∧ (s.bcast n f).1.seq = s.seq ∧ (s.bcast n f).1.dests = s.dests ∧
    (s.bcast n f).1.taps = s.taps ∧ (s.bcast n f).1.next = s.next := by
  rw [State.bcast]
  split
  · exact ⟨rfl, rfl, rfl, rfl, rfl⟩
  · exact ⟨rfl, rfl, rfl, rfl, rfl⟩

theorem link_keep (s : State) (p c) : (s.link p c).frames = s.frames ∧ (s.link p c).seq = s.seq ∧ (s.link p c).dests = s.dests ∧
    (s.link p c).taps = s.taps ∧ (s.link p c).next = s.next := by
  rw [State.link]
  split
  · exact ⟨rfl, rfl, rfl, rfl, rfl⟩
  · exact ⟨rfl, rfl, rfl, rfl, rfl⟩

theorem register_keep (s : State) (n cb ty name e a) : (register s n cb ty name e a).1.frames = s.frames ∧
    (register s n cb ty name e a).1.seq = s.seq ∧ (register s n cb ty name e a).1.dests = s.dests ∧
    (register s n cb ty name e a).1.taps = s.taps ∧ (register s n cb ty name e a).1.next = s.next := by
  rw [register]
  split
  · exact ⟨rfl, rfl, rfl, rfl, rfl⟩
  · split
    · exact ⟨rfl, rfl, rfl, rfl, rfl⟩
    · split
      · exact ⟨rfl, rfl, rfl, rfl, rfl⟩
      · obtain ⟨a1, a2, a3, a4, a5⟩ := modObs_keep s n (· ++ [⟨cb, ty, n, name⟩])
        simp only
        split
        · exact ⟨a1, a2, a3, a4, a5⟩
        · obtain ⟨b1, b2, b3, b4, b5⟩ := bcast_keep (s.modObs n (· ++ [⟨cb, ty, n, name⟩])) n (bcastAdd ⟨cb, ty, n, name⟩ (by assumption) a)
          exact ⟨b1.trans a1, b2.trans a2, b3.trans a3, b4.trans a4, b5.trans a5⟩

theorem deregister_keep (s : State) (n cb ty name a) : (deregister s n cb ty name a).1.frames = s.frames ∧
    (deregister s n cb ty name a).1.seq = s.seq ∧ (deregister s n cb ty name a).1.dests = s.dests ∧
    (deregister s n cb ty name a).1.taps = s.taps ∧ (deregister s n cb ty name a).1.next = s.next := by
  rw [deregister]
  split
  · exact ⟨rfl, rfl, rfl, rfl, rfl⟩
  · split
    · split
      · exact ⟨rfl, rfl, rfl, rfl, rfl⟩
      · rename_i names _
        obtain ⟨b1, b2, b3, b4, b5⟩ := bcast_keep s n (bcastDel ⟨cb, ty, n, name⟩ names a)
        obtain ⟨a1, a2, a3, a4, a5⟩ := modObs_keep (s.bcast n (bcastDel ⟨cb, ty, n, name⟩ names a)).1 n (·.erase ⟨cb, ty, n, name⟩)
        exact ⟨a1.trans b1, a2.trans b2, a3.trans b3, a4.trans b4, a5.trans b5⟩
    · exact ⟨rfl, rfl, rfl, rfl, rfl⟩

theorem detach_keep (s : State) (k t) : (detach s k t).1.frames = s.frames ∧ (detach s k t).1.seq = s.seq ∧
    (detach s k t).1.dests = s.dests ∧ (detach s k t).1.next = s.next ∧
    ((detach s k t).1.taps = s.taps ∨ (detach s k t).1.taps = s.taps.set k { t with node := none }) := by
  rw [detach]
  split
  · exact ⟨rfl, rfl, rfl, rfl, .inl rfl⟩
  · rename_i n _
    obtain ⟨a1, a2, a3, a4, a5⟩ := deregister_keep s n (.tap k) 0 t.cat true
    exact ⟨a1, a2, a3, a5, .inr (by simp only [a4])⟩

theorem tapReset_keep (s : State) (k n) : (tapReset s k n).1.frames = s.frames ∧ (tapReset s k n).1.seq = s.seq ∧
    (tapReset s k n).1.dests = s.dests ∧ (tapReset s k n).1.next = s.next ∧
    ((tapReset s k n).1.taps = s.taps ∨ ∃ t m, s.taps[k]? = some t ∧ (tapReset s k n).1.taps = s.taps.set k { t with node := m }) := by
  rw [tapReset]
  split
  · exact ⟨rfl, rfl, rfl, rfl, .inl rfl⟩
  · rename_i t ht
    obtain ⟨a1, a2, a3, a4, a5⟩ := detach_keep s k t
    have hd : (detach s k t).1.taps = s.taps ∨ ∃ u m, s.taps[k]? = some u ∧ (detach s k t).1.taps = s.taps.set k { u with node := m } := by
      rcases a5 with x | x
      · exact .inl x
      · exact .inr ⟨t, none, ht, x⟩
    simp only
    split
    · exact ⟨a1, a2, a3, a4, hd⟩
    · split
      · exact ⟨a1, a2, a3, a4, hd⟩
      · rename_i m
        split
        · exact ⟨rfl, rfl, rfl, rfl, .inl rfl⟩
        · obtain ⟨b1, b2, b3, b4, b5⟩ := register_keep { (detach s k t).1 with taps := (detach s k t).1.taps.set k { t with node := some m } }
            m (.tap k) 0 t.cat false true
          refine ⟨b1.trans a1, b2.trans a2, b3.trans a3, b5.trans a4, .inr ⟨t, some m, ht, ?_⟩⟩
          rw [b4]
          show (detach s k t).1.taps.set k _ = _
          rcases a5 with x | x
          · rw [x]
          · rw [x, List.set_set]

theorem newSource_keep (s : State) (p ty name) : (newSource s p ty name).1.frames = s.frames ∧ (newSource s p ty name).1.seq = s.seq ∧
    (newSource s p ty name).1.dests = s.dests ∧ (newSource s p ty name).1.taps = s.taps := by
  rw [newSource]
  split
  · exact ⟨rfl, rfl, rfl, rfl⟩
  · obtain ⟨a1, a2, a3, a4, -⟩ := link_keep { s with next := s.next + 1 } p (.node s.next 0 [] (some ⟨ty, name, [], [], false, 0⟩) [])
    exact ⟨a1, a2, a3, a4⟩

theorem addChild_keep (s : State) (p c) : (addChild s p c).1.frames = s.frames ∧ (addChild s p c).1.seq = s.seq ∧
    (addChild s p c).1.dests = s.dests ∧ (addChild s p c).1.taps = s.taps ∧ (addChild s p c).1.next = s.next := by
  rw [addChild]
  split
  · exact ⟨rfl, rfl, rfl, rfl, rfl⟩
  · split
    · exact ⟨rfl, rfl, rfl, rfl, rfl⟩
    · split
      · exact ⟨rfl, rfl, rfl, rfl, rfl⟩
      · rename_i t _ _
        exact link_keep { s with roots := dropRoot c s.roots } p t

/-- calls other than posts and deliveries -/
def Op.quiet : Op → Bool
  | .post _ _ => false
  | .deliver => false
  | _ => true

theorem step_keep (s : State) (o : Op) (h : o.quiet = true) :
    (step s o).1.frames = s.frames ∧ (step s o).1.seq = s.seq ∧ (step s o).1.dests = s.dests := by
  cases o with
  | node => exact ⟨rfl, rfl, rfl⟩
  | source p ty name =>
    rw [step]
    split
    · obtain ⟨a1, a2, a3, -⟩ := newSource_keep s p ty name
      exact ⟨a1, a2, a3⟩
    · exact ⟨rfl, rfl, rfl⟩
  | addChild p c =>
    rw [step]
    split
    · obtain ⟨a1, a2, a3, -⟩ := addChild_keep s p c
      exact ⟨a1, a2, a3⟩
    · exact ⟨rfl, rfl, rfl⟩
  | makePrivate n =>
    rw [step]
    split <;> exact ⟨rfl, rfl, rfl⟩
  | register n k ty name e a =>
    rw [step]
    split
    · obtain ⟨a1, a2, a3, -⟩ := register_keep s n (.user k) ty name e a
      exact ⟨a1, a2, a3⟩
    · exact ⟨rfl, rfl, rfl⟩
  | deregister n k ty name a =>
    rw [step]
    split
    · obtain ⟨a1, a2, a3, -⟩ := deregister_keep s n (.user k) ty name a
      exact ⟨a1, a2, a3⟩
    · exact ⟨rfl, rfl, rfl⟩
  | tap => exact ⟨rfl, rfl, rfl⟩
  | tapReset k n =>
    rw [step]
    split
    · obtain ⟨a1, a2, a3, -⟩ := tapReset_keep s k n
      exact ⟨a1, a2, a3⟩
    · exact ⟨rfl, rfl, rfl⟩
  | post => cases h
  | deliver => cases h
  | observed i =>
    rw [step]
    split <;> exact ⟨rfl, rfl, rfl⟩

/-! ### the observers of a source -/

theorem covers_iff {w : World} {x : Src} {i : Nat} (hs : w.srcs i = some (x.ty, x.name)) {d : Del} (hd : Single d.name) {ids : List Nat}
    (ha : ∀ a, Above w.par a i ↔ a ∈ ids) :
    w.Covers d i ↔ d.ty = x.ty ∧ (d.pt = 0 ∨ d.pt ∈ ids) ∧ catMatch d.name x.name = true := by
  unfold World.Covers
  rw [hs, catMatch_fits hd.1, ha]
  constructor
  · rintro ⟨nm, h1, h2, h3⟩
    simp only [Option.some.injEq, Prod.mk.injEq] at h1
    obtain ⟨e1, rfl⟩ := h1
    exact ⟨e1.symm, h2, h3⟩
  · rintro ⟨h1, h2, h3⟩
    exact ⟨x.name, by rw [h1], h2, h3⟩

theorem dels_observers {s w} (h : InvT s w) {i : Nat} {x : Src} (hs : w.srcs i = some (x.ty, x.name)) {ids : List Nat}
    (hx : SrcOK w.regs ids x) (ha : ∀ a, Above w.par a i ↔ a ∈ ids) : w.Observers i x.dels := by
  refine ⟨hx.nodup, fun d => ?_⟩
  rw [hx.mem]
  constructor
  · rintro ⟨h1, h2⟩
    exact ⟨h1, (covers_iff hs (h.rname d h1) ha).2 h2⟩
  · rintro ⟨h1, h2⟩
    exact ⟨h1, (covers_iff hs (h.rname d h1) ha).1 h2⟩

theorem get_of_srcs {s w} (h : InvT s w) {i ty : Nat} {nm : Str} (hi : w.srcs i = some (ty, nm)) :
    ∃ x, (s.get i).bind Tree.src = some x ∧ x.ty = ty ∧ x.name = nm ∧ x.posts = w.posts i ∧ w.Observers i x.dels ∧
      x.nodes.Nodup ∧ (∀ n, n ∈ x.nodes ↔ ∃ d ∈ x.dels, d.pt = n) ∧ x.observed = !x.dels.isEmpty := by
  rcases get_src h i with ⟨x, h1, h2, h3, ids, h4, h5⟩ | ⟨-, h2⟩
  · have e := h2.symm.trans hi
    cases e
    exact ⟨x, h1, rfl, rfl, h3, dels_observers h h2 h4 h5, h4.nnodup, h4.nmem, h4.obs⟩
  · rw [hi] at h2; cases h2

/-! ### delivery -/

theorem deliver_call {s : State} {m d ds fs} (h : s.frames = ⟨m, d :: ds⟩ :: fs) :
    (step s .deliver).2 = callOf m d ∧ (step s .deliver).1.frames = ⟨m, ds⟩ :: fs := by
  show (deliver s).2 = _ ∧ (deliver s).1.frames = _
  rw [deliver, h]
  simp only
  rw [callOf]
  cases hcb : d.cb with
  | user k => exact ⟨rfl, rfl⟩
  | tap k =>
    refine ⟨rfl, ?_⟩
    simp only
    rw [send]
    split <;> rfl

theorem deliver_ret {s : State} {m fs} (h : s.frames = ⟨m, []⟩ :: fs) :
    (step s .deliver) = ({ s with frames := fs }, .returned m) := by
  show deliver s = _
  rw [deliver, h]

theorem deliver_run (ds : List Del) : ∀ (s : State) (m : Msg) (e : List Del) (fs : List Frame), s.frames = ⟨m, ds ++ e⟩ :: fs →
    (runOps step s (List.replicate ds.length .deliver)).2 = ds.map (callOf m) ∧
    (runOps step s (List.replicate ds.length .deliver)).1.frames = ⟨m, e⟩ :: fs := by
  induction ds with
  | nil => intro s m e fs h; exact ⟨rfl, h⟩
  | cons d ds ih =>
    intro s m e fs h
    obtain ⟨h1, h2⟩ := deliver_call h
    obtain ⟨h3, h4⟩ := ih _ m e fs h2
    rw [List.length_cons, List.replicate_succ, runOps]
    refine ⟨?_, h4⟩
    show (step s .deliver).2 :: _ = _
    rw [h1, List.map_cons]
    exact congrArg _ h3

/-- all calls and the return -/
theorem deliver_all (ds : List Del) (s : State) (m : Msg) (fs : List Frame) (h : s.frames = ⟨m, ds⟩ :: fs) :
    (runOps step s (List.replicate (ds.length + 1) .deliver)).2 = ds.map (callOf m) ++ [.returned m] ∧
    (runOps step s (List.replicate (ds.length + 1) .deliver)).1.frames = fs := by
  obtain ⟨h1, h2⟩ := deliver_run ds s m [] fs (by rw [List.append_nil]; exact h)
  rw [List.replicate_succ', runOps_append, runOps_append_snd, h1]
  have := deliver_ret h2
  constructor
  · show _ ++ [(step _ .deliver).2] = _
    rw [this]
  · show (step _ .deliver).1.frames = _
    rw [this]

theorem post_run {s w} (h : InvT s w) (hq : s.seq = w.msgs) {i ty : Nat} {nm : Str} (hi : w.srcs i = some (ty, nm)) (x : Nat) :
    ∃ l, w.Observers i l ∧ (step s (.post i x)).2 = .ok ∧
      (step s (.post i x)).1.frames = ⟨⟨ty, if ty = 0 then w.msgs else 0, i, x⟩, l⟩ :: s.frames ∧
      (step s (.post i x)).1.taps = s.taps ∧ (step s (.post i x)).1.dests = s.dests ∧
      (step s (.post i x)).1.seq = if ty = 0 then s.seq + 1 else s.seq := by
  obtain ⟨y, h1, h2, -, -, h3, -⟩ := get_of_srcs h hi
  refine ⟨y.dels, h3, ?_⟩
  show (post s i x).2 = _ ∧ (post s i x).1.frames = _ ∧ (post s i x).1.taps = _ ∧ (post s i x).1.dests = _ ∧ (post s i x).1.seq = _
  rw [post, h1]
  simp only
  rw [h2, hq]
  exact ⟨trivial, rfl, rfl, rfl, rfl⟩

/-! ### destinations -/

structure OutOK (ops : List Op) (s : State) (w : World) : Prop where
  fr : ∀ f ∈ s.frames, ∀ d ∈ f.rest, ∀ k, d.cb = .tap k → f.msg.ty = 0 ∧ k < w.taps.length
  one : s.frames.Pairwise (fun a b => ¬ (a.msg.ty = 0 ∧ b.msg.ty = 0))
  cur : ∀ f ∈ s.frames, f.msg.ty = 0 → f.msg.seq + 1 = s.seq
  lt : ∀ D, ∀ m ∈ (s.dests D).out, m.seq < s.seq
  same : ∀ D, ∀ m ∈ (s.dests D).out, ∀ f ∈ s.frames, f.msg.ty = 0 → m.seq = f.msg.seq → m = f.msg
  last : ∀ D, (s.dests D).last = -1 ∨ ∃ m ∈ (s.dests D).out, (s.dests D).last = m.seq
  char : ∀ D m, (m ∈ (s.dests D).out ∨ ∃ f ∈ s.frames, f.msg = m ∧ ∃ d ∈ f.rest, ∃ k t, d.cb = .tap k ∧ w.taps[k]? = some t ∧ t.dest = D) ↔
    Logged ops D m

theorem logged_snoc {ops o D m} : Logged (ops ++ [o]) D m ↔ Logged ops D m ∨
    ∃ i x nm, o = .post i x ∧ (world ops).srcs i = some (0, nm) ∧ m = ⟨0, (world ops).msgs, i, x⟩ ∧ (world ops).Wants i D := by
  constructor
  · rintro ⟨pre, i, x, rest, nm, h1, h2⟩
    rcases List.eq_nil_or_concat rest with rfl | ⟨r, a, rfl⟩
    · have := List.append_inj' h1 rfl
      cases this.2
      obtain rfl := this.1
      exact .inr ⟨i, x, nm, rfl, h2⟩
    · have h3 : ops ++ [o] = (pre ++ .post i x :: r) ++ [a] := by rw [h1]; simp
      have := List.append_inj' h3 rfl
      exact .inl ⟨pre, i, x, r, nm, this.1, h2⟩
  · rintro (⟨pre, i, x, rest, nm, h1, h2⟩ | ⟨i, x, nm, h1, h2⟩)
    · exact ⟨pre, i, x, rest ++ [o], nm, by rw [h1]; simp, h2⟩
    · exact ⟨ops, i, x, [], nm, by rw [h1], h2⟩

theorem out_keep {ops o s s' w w'} (h : OutOK ops s w) (ho : o.quiet = true) (h1 : s'.frames = s.frames) (h2 : s'.seq = s.seq)
    (h3 : s'.dests = s.dests) (h4 : s.frames = [] ∨ (w.taps.length ≤ w'.taps.length ∧ ∀ k, k < w.taps.length → w'.taps[k]? = w.taps[k]?)) :
    OutOK (ops ++ [o]) s' w' := by
  have hl : ∀ D m, Logged (ops ++ [o]) D m ↔ Logged ops D m := by
    intro D m
    rw [logged_snoc]
    constructor
    · rintro (x | ⟨i, x, nm, rfl, -⟩)
      · exact x
      · cases ho
    · exact .inl
  refine ⟨?_, by rw [h1]; exact h.one, by rw [h1, h2]; exact h.cur, by rw [h2, h3]; exact h.lt, by rw [h1, h3]; exact h.same,
    by rw [h3]; exact h.last, ?_⟩
  · rw [h1]
    intro f hf d hd k hk
    rcases h4 with x | x
    · rw [x] at hf; cases hf
    · exact ⟨(h.fr f hf d hd k hk).1, Nat.lt_of_lt_of_le (h.fr f hf d hd k hk).2 x.1⟩
  · intro D m
    rw [hl, ← h.char, h1, h3]
    refine or_congr Iff.rfl ?_
    rcases h4 with x | x
    · rw [x]; simp
    · constructor
      · rintro ⟨f, hf, e, d, hd, k, t, hk, ht, hD⟩
        rw [x.2 k (h.fr f hf d hd k hk).2] at ht
        exact ⟨f, hf, e, d, hd, k, t, hk, ht, hD⟩
      · rintro ⟨f, hf, e, d, hd, k, t, hk, ht, hD⟩
        rw [← x.2 k (h.fr f hf d hd k hk).2] at ht
        exact ⟨f, hf, e, d, hd, k, t, hk, ht, hD⟩

theorem taps_keep (w : World) (o : Op) (r : Res) (h : ∀ k n, o ≠ .tapReset k n) :
    w.taps.length ≤ (w.step (o, r)).taps.length ∧ ∀ k, k < w.taps.length → (w.step (o, r)).taps[k]? = w.taps[k]? := by
  have hsame : (w.step (o, r)).taps = w.taps → w.taps.length ≤ (w.step (o, r)).taps.length ∧
      ∀ k, k < w.taps.length → (w.step (o, r)).taps[k]? = w.taps[k]? := fun e => by rw [e]; exact ⟨Nat.le_refl _, fun _ _ => rfl⟩
  cases o with
  | tapReset k n => exact absurd rfl (h k n)
  | tap cat dest =>
    cases r with
    | made n =>
      constructor
      · show _ ≤ (w.taps ++ [_]).length
        simp
      · intro k hk
        show (w.taps ++ [_])[k]? = _
        rw [List.getElem?_append, if_pos hk]
    | _ => exact hsame rfl
  | post i x =>
    cases r with
    | ok =>
      apply hsame
      rw [World.step]
      split <;> rfl
    | _ => exact hsame rfl
  | _ => cases r <;> exact hsame rfl

theorem no_nesting_snoc {ops o} (h : NoNesting (ops ++ [o])) : NoNesting ops ∧
    ∀ i x, o = .post i x → (∃ nm, (world ops).srcs i = some (0, nm)) → 0 ∉ (world ops).pending := by
  constructor
  · intro pre i x post e
    exact h pre i x (post ++ [o]) (by rw [e]; simp)
  · intro i x e
    exact h ops i x [] (by rw [e])

theorem out_all {ops : List Op} : Legal ops → NoNesting ops → OutOK ops (stateOf ops) (world ops) := by
  induction ops using snoc_induction with
  | h0 =>
    intro _ _
    refine ⟨?_, List.Pairwise.nil, ?_, ?_, ?_, fun D => .inl rfl, ?_⟩
    · intro f hf; cases hf
    · intro f hf; cases hf
    · intro D m hm; cases hm
    · intro D m hm; cases hm
    · intro D m
      constructor
      · rintro (x | ⟨f, hf, -⟩)
        · cases x
        · cases hf
      · rintro ⟨pre, i, x, rest, nm, h1, -⟩
        cases pre <;> cases h1
  | h1 ops o ih =>
    intro hl hn
    obtain ⟨hl', hp⟩ := legal_snoc hl
    obtain ⟨hn', hn1⟩ := no_nesting_snoc hn
    have ho := ih hl' hn'
    obtain ⟨b, hi⟩ := inv_legal hl'
    rw [state_snoc, world_snoc]
    change Inv b (stateOf ops) (world ops) at hi
    generalize stateOf ops = s at *
    have hquiet : o.quiet = true → OutOK (ops ++ [o]) (step s o).1 ((world ops).step (o, (step s o).2)) := by
      intro hq
      obtain ⟨h1, h2, h3⟩ := step_keep s o hq
      refine out_keep ho hq h1 h2 h3 ?_
      by_cases hr : ∃ k n, o = .tapReset k n
      · obtain ⟨k, n, rfl⟩ := hr
        by_cases hf : s.frames = []
        · exact .inl hf
        · right
          rw [step, if_neg hf]
          exact ⟨Nat.le_refl _, fun _ _ => rfl⟩
      · exact .inr (taps_keep _ o _ (fun k n e => hr ⟨k, n, e⟩))
    cases o with
    | post i x =>
      have htk := taps_keep (world ops) (.post i x) (step s (.post i x)).2 nofun
      rcases hsrc : (world ops).srcs i with _ | ⟨ty, nm⟩
      · rcases get_src hi.t i with ⟨y, h1, h2, -⟩ | ⟨h1, h2⟩
        · rw [hsrc] at h2; cases h2
        · have e : step s (.post i x) = (s, .undefined) := by
            show post s i x = _
            rw [post, h1]
          rw [e]
          refine ⟨ho.fr, ho.one, ho.cur, ho.lt, ho.same, ho.last, fun D m => ?_⟩
          rw [logged_snoc]
          refine (ho.char D m).trans ⟨.inl, ?_⟩
          rintro (y | ⟨i', x', nm, e, h3, -⟩)
          · exact y
          · cases e
            rw [hsrc] at h3; cases h3
      · obtain ⟨l, h1, h2, h3, h4, h5, h6⟩ := post_run hi.t hi.seq hsrc x
        have hw : ((world ops).step (.post i x, (step s (.post i x)).2)).taps = (world ops).taps := by
          rw [h2]
          simp [World.step, hsrc]
        have hty : ∀ d ∈ l, d.ty = ty := by
          intro d hd
          obtain ⟨nm', h7, -⟩ := ((h1.2 d).1 hd).2
          rw [hsrc] at h7
          cases h7; rfl
        have htap : ∀ d ∈ l, ∀ k, d.cb = .tap k → ty = 0 ∧ ∃ t n, (world ops).taps[k]? = some t ∧ t.node = some n ∧ d = ⟨.tap k, 0, n, t.cat⟩ := by
          intro d hd k hk
          obtain ⟨t, h7, h8⟩ := (hi.treg k d hk).1 ((h1.2 d).1 hd).1
          obtain ⟨n, h9, rfl⟩ := mem_tapDel.1 h8
          exact ⟨(hty _ hd).symm, t, n, h7, h9, rfl⟩
        have hpend := hi.pend
        refine ⟨?_, ?_, ?_, ?_, ?_, ?_, ?_⟩
        · rw [h3, hw]
          intro f hf d hd k hk
          rcases List.mem_cons.1 hf with rfl | hf
          · obtain ⟨h7, t, n, h8, -⟩ := htap d hd k hk
            refine ⟨h7, ?_⟩
            rcases Nat.lt_or_ge k (world ops).taps.length with y | y
            · exact y
            · rw [List.getElem?_eq_none_iff.2 y] at h8; cases h8
          · exact ho.fr f hf d hd k hk
        · rw [h3, List.pairwise_cons]
          refine ⟨fun f hf hc => ?_, ho.one⟩
          have hz : ty = 0 := hc.1
          subst hz
          apply hn1 i x rfl ⟨nm, hsrc⟩
          rw [← hpend]
          exact List.mem_map.2 ⟨f, hf, hc.2⟩
        · rw [h3, h6]
          intro f hf hz
          rcases List.mem_cons.1 hf with rfl | hf
          · have hz : ty = 0 := hz
            subst hz
            simp [hi.seq]
          · by_cases hz' : ty = 0
            · exfalso
              subst hz'
              apply hn1 i x rfl ⟨nm, hsrc⟩
              rw [← hpend]
              exact List.mem_map.2 ⟨f, by assumption, hz⟩
            · rw [if_neg hz']
              exact ho.cur f hf hz
        · rw [h5, h6]
          intro D m hm
          have := ho.lt D m hm
          split <;> omega
        · rw [h5, h3]
          intro D m hm f hf hz he
          rcases List.mem_cons.1 hf with rfl | hf2
          · have hz : ty = 0 := hz
            subst hz
            have := ho.lt D m hm
            rw [he, hi.seq] at this
            simp at this
          · exact ho.same D m hm f hf2 hz he
        · rw [h5]; exact ho.last
        · intro D m
          rw [logged_snoc, h5, h3, hw, ← ho.char]
          constructor
          · rintro (y | ⟨f, hf, e, d, hd, k, t, hk, ht, hD⟩)
            · exact .inl (.inl y)
            · rcases List.mem_cons.1 hf with rfl | hf2
              · obtain ⟨rfl, t', n, h8, h9, rfl⟩ := htap d hd k hk
                rw [ht] at h8
                cases h8
                refine .inr ⟨i, x, nm, rfl, hsrc, e.symm, k, t, n, ht, hD, h9, ?_⟩
                exact ((h1.2 _).1 hd).2
              · exact .inl (.inr ⟨f, hf2, e, d, hd, k, t, hk, ht, hD⟩)
          · rintro ((y | ⟨f, hf, y⟩) | ⟨i', x', nm', e, h7, h8, k, t, n, h9, h10, h11, h12⟩)
            · exact .inl y
            · exact .inr ⟨f, List.mem_cons_of_mem _ hf, y⟩
            · cases e
              rw [hsrc] at h7
              cases h7
              refine .inr ⟨_, List.mem_cons_self, h8.symm, ⟨.tap k, 0, n, t.cat⟩, ?_, k, t, rfl, h9, h10⟩
              exact (h1.2 _).2 ⟨(hi.treg k _ rfl).2 ⟨t, h9, mem_tapDel.2 ⟨n, h11, rfl⟩⟩, h12⟩
    | deliver =>
      have hlog : ∀ D m, Logged (ops ++ [.deliver]) D m ↔ Logged ops D m := by
        intro D m
        rw [logged_snoc]
        refine ⟨?_, .inl⟩
        rintro (y | ⟨i', x', nm, e, -⟩)
        · exact y
        · cases e
      cases hf : s.frames with
      | nil =>
        have e : step s .deliver = (s, .undefined) := by
          show deliver s = _
          rw [deliver, hf]
        rw [e]
        refine ⟨ho.fr, ho.one, ho.cur, ho.lt, ho.same, ho.last, fun D m => ?_⟩
        rw [hlog]
        exact ho.char D m
      | cons f fs =>
        obtain ⟨m, rest⟩ := f
        have hone := ho.one
        rw [hf, List.pairwise_cons] at hone
        cases rest with
        | nil =>
          rw [deliver_ret hf]
          refine ⟨fun f h' => ho.fr f (by rw [hf]; exact List.mem_cons_of_mem _ h'), hone.2,
            fun f h' => ho.cur f (by rw [hf]; exact List.mem_cons_of_mem _ h'), ho.lt,
            fun D m hm f h' => ho.same D m hm f (by rw [hf]; exact List.mem_cons_of_mem _ h'), ho.last, fun D m' => ?_⟩
          rw [hlog, ← ho.char, hf]
          refine or_congr Iff.rfl ⟨?_, ?_⟩
          · rintro ⟨f, h1, h2⟩
            exact ⟨f, List.mem_cons_of_mem _ h1, h2⟩
          · rintro ⟨f, h1, h2, d, h3, h4⟩
            rcases List.mem_cons.1 h1 with rfl | h1
            · cases h3
            · exact ⟨f, h1, h2, d, h3, h4⟩
        | cons d ds =>
          have hfr' : ∀ f ∈ (⟨m, ds⟩ :: fs : List Frame), ∃ f' ∈ s.frames, f'.msg = f.msg ∧ ∀ d' ∈ f.rest, d' ∈ f'.rest := by
            intro f h1
            rcases List.mem_cons.1 h1 with rfl | h1
            · exact ⟨⟨m, d :: ds⟩, by rw [hf]; exact List.mem_cons_self, rfl, fun d' h' => List.mem_cons_of_mem _ h'⟩
            · exact ⟨f, by rw [hf]; exact List.mem_cons_of_mem _ h1, rfl, fun d' h' => h'⟩
          have hw : ∀ r, (∀ m, r ≠ .returned m) → (world ops).step (.deliver, r) = world ops := by
            intro r hr
            cases r with
            | returned m => exact absurd rfl (hr m)
            | _ => rfl
          have hframes := (deliver_call hf).2
          have hres := (deliver_call hf).1
          rw [hw _ (by intro m'; rw [hres, callOf]; split <;> nofun)]
          have hseq : (step s .deliver).1.seq = s.seq := by
            show (deliver s).1.seq = _
            rw [deliver, hf]
            simp only
            split
            · rfl
            · rw [send]; split <;> rfl
          have hfr2 : ∀ f ∈ (⟨m, ds⟩ :: fs : List Frame), ∀ d ∈ f.rest, ∀ k, d.cb = .tap k → f.msg.ty = 0 ∧ k < (world ops).taps.length := by
            intro f h1 d' hd' k hk
            obtain ⟨f', h2, h3, h4⟩ := hfr' f h1
            rw [← h3]
            exact ho.fr f' h2 d' (h4 d' hd') k hk
          have hcur2 : ∀ f ∈ (⟨m, ds⟩ :: fs : List Frame), f.msg.ty = 0 → f.msg.seq + 1 = s.seq := by
            intro f h1
            obtain ⟨f', h2, h3, -⟩ := hfr' f h1
            rw [← h3]
            exact ho.cur f' h2
          have hone2 : (⟨m, ds⟩ :: fs : List Frame).Pairwise (fun a b => ¬ (a.msg.ty = 0 ∧ b.msg.ty = 0)) :=
            List.pairwise_cons.2 ⟨hone.1, hone.2⟩
          have hmem : (⟨m, d :: ds⟩ : Frame) ∈ s.frames := by rw [hf]; exact List.mem_cons_self
          cases hcb : d.cb with
          | user k =>
            have hd : (step s .deliver).1.dests = s.dests := by
              show (deliver s).1.dests = _
              rw [deliver, hf]
              simp only [hcb]
            refine ⟨by rw [hframes]; exact hfr2, by rw [hframes]; exact hone2, by rw [hframes, hseq]; exact hcur2, by rw [hd, hseq]; exact ho.lt, ?_,
              by rw [hd]; exact ho.last, ?_⟩
            · rw [hframes, hd]
              intro D m' hm' f h1 hz
              obtain ⟨f', h2, h3, -⟩ := hfr' f h1
              rw [← h3] at hz ⊢
              exact ho.same D m' hm' f' h2 hz
            · intro D m'
              rw [hlog, ← ho.char, hframes, hd]
              refine or_congr Iff.rfl ⟨?_, ?_⟩
              · rintro ⟨f, h1, h2, d', h3, h4⟩
                obtain ⟨f', h5, h6, h7⟩ := hfr' f h1
                exact ⟨f', h5, h6.trans h2, d', h7 d' h3, h4⟩
              · rw [hf]
                rintro ⟨f, h1, h2, d', h3, k', t, h4, h5⟩
                rcases List.mem_cons.1 h1 with rfl | h1
                · rcases List.mem_cons.1 h3 with rfl | h3
                  · rw [hcb] at h4; cases h4
                  · exact ⟨⟨m, ds⟩, List.mem_cons_self, h2, d', h3, k', t, h4, h5⟩
                · exact ⟨f, List.mem_cons_of_mem _ h1, h2, d', h3, k', t, h4, h5⟩
          | tap k =>
            obtain ⟨hz, hk⟩ := ho.fr _ hmem d List.mem_cons_self k hcb
            have hz : m.ty = 0 := hz
            obtain ⟨t, ht⟩ : ∃ t, (world ops).taps[k]? = some t := ⟨_, List.getElem?_eq_getElem hk⟩
            obtain ⟨num, hs⟩ := hi.tap k t ht
            have hd : (step s .deliver).1.dests = upd s.dests t.dest ((s.dests t.dest).write m) := by
              show (deliver s).1.dests = _
              rw [deliver, hf]
              simp only [hcb]
              rw [send]
              simp only [hs]
            have hcm : m.seq + 1 = s.seq := ho.cur _ hmem hz
            have hwr : (∀ m', m' ∈ ((s.dests t.dest).write m).out ↔ m' ∈ (s.dests t.dest).out ∨ m' = m) ∧
                (((s.dests t.dest).write m).last = -1 ∨ ∃ m' ∈ ((s.dests t.dest).write m).out, ((s.dests t.dest).write m).last = m'.seq) := by
              rw [Dest.write]
              split
              · rename_i hle
                refine ⟨fun m' => ⟨.inl, ?_⟩, ho.last _⟩
                rintro (y | rfl)
                · exact y
                · rcases ho.last t.dest with y | ⟨m2, h1, h2⟩
                  · rw [y] at hle; omega
                  · have := ho.lt _ m2 h1
                    have h3 : m2.seq = m'.seq := by rw [h2] at hle; omega
                    have e : m2 = m' := ho.same _ m2 h1 _ hmem hz h3
                    show m' ∈ (s.dests t.dest).out
                    rw [← e]
                    exact h1
              · refine ⟨fun m' => by simp, .inr ⟨m, by simp, rfl⟩⟩
            refine ⟨by rw [hframes]; exact hfr2, by rw [hframes]; exact hone2, by rw [hframes, hseq]; exact hcur2, ?_, ?_, ?_, ?_⟩
            · rw [hd, hseq]
              intro D m' hm'
              by_cases hD : D = t.dest
              · subst hD
                rw [upd_same, hwr.1] at hm'
                rcases hm' with y | rfl
                · exact ho.lt _ m' y
                · omega
              · rw [upd_other _ _ hD] at hm'
                exact ho.lt _ m' hm'
            · rw [hframes, hd]
              intro D m' hm' f h1 hz'
              by_cases hD : D = t.dest ∧ m' = m
              · obtain ⟨rfl, rfl⟩ := hD
                intro _
                rcases List.mem_cons.1 h1 with rfl | h1
                · rfl
                · exact absurd ⟨hz, hz'⟩ (hone.1 f h1)
              · have hm2 : m' ∈ (s.dests D).out := by
                  by_cases hD' : D = t.dest
                  · subst hD'
                    rw [upd_same, hwr.1] at hm'
                    rcases hm' with y | rfl
                    · exact y
                    · exact absurd ⟨rfl, rfl⟩ hD
                  · rwa [upd_other _ _ hD'] at hm'
                obtain ⟨f', h2, h3, -⟩ := hfr' f h1
                rw [← h3] at hz' ⊢
                exact ho.same D m' hm2 f' h2 hz'
            · rw [hd]
              intro D
              by_cases hD : D = t.dest
              · subst hD
                rw [upd_same]
                exact hwr.2
              · rw [upd_other _ _ hD]
                exact ho.last D
            · intro D m'
              rw [hlog, ← ho.char, hframes, hd]
              constructor
              · rintro (y | ⟨f, h1, h2, d', h3, h4⟩)
                · by_cases hD : D = t.dest
                  · subst hD
                    rw [upd_same, hwr.1] at y
                    rcases y with y | rfl
                    · exact .inl y
                    · exact .inr ⟨_, hmem, rfl, d, List.mem_cons_self, k, t, hcb, ht, rfl⟩
                  · rw [upd_other _ _ hD] at y
                    exact .inl y
                · obtain ⟨f', h5, h6, h7⟩ := hfr' f h1
                  exact .inr ⟨f', h5, h6.trans h2, d', h7 d' h3, h4⟩
              · rintro (y | ⟨f, h1, h2, d', h3, k', t', h4, h5, h6⟩)
                · left
                  by_cases hD : D = t.dest
                  · subst hD
                    rw [upd_same, hwr.1]
                    exact .inl y
                  · rw [upd_other _ _ hD]
                    exact y
                · rw [hf] at h1
                  rcases List.mem_cons.1 h1 with rfl | h1
                  · rcases List.mem_cons.1 h3 with rfl | h3
                    · left
                      rw [hcb] at h4
                      cases h4
                      rw [ht] at h5
                      cases h5
                      rw [← h6, upd_same, hwr.1]
                      exact .inr h2.symm
                    · exact .inr ⟨⟨m, ds⟩, List.mem_cons_self, h2, d', h3, k', t', h4, h5, h6⟩
                  · exact .inr ⟨f, List.mem_cons_of_mem _ h1, h2, d', h3, k', t', h4, h5, h6⟩
    | _ => exact hquiet rfl

/-! ### counters -/

structure DestOK (d : Dest) : Prop where
  recv : d.recv = d.num + d.dups
  num : d.num = d.out.length
  incr : d.out.Pairwise (fun a b => a.seq < b.seq)
  last : ∀ m ∈ d.out, (m.seq : Int) ≤ d.last

theorem write_ok {d : Dest} (h : DestOK d) (m : Msg) : DestOK (d.write m) := by
  rw [Dest.write]
  split
  · refine ⟨?_, h.num, h.incr, h.last⟩
    show d.recv + 1 = d.num + (d.dups + 1)
    have := h.recv
    omega
  · rename_i hl
    refine ⟨?_, ?_, ?_, ?_⟩
    · show d.recv + 1 = d.num + 1 + d.dups
      have := h.recv
      omega
    · show d.num + 1 = (d.out ++ [m]).length
      simp [h.num]
    · show (d.out ++ [m]).Pairwise _
      rw [List.pairwise_append]
      refine ⟨h.incr, List.pairwise_singleton _ _, fun a ha b hb => ?_⟩
      rw [List.mem_singleton] at hb
      subst hb
      have := h.last a ha
      omega
    · intro a ha
      show (a.seq : Int) ≤ m.seq
      rcases List.mem_append.1 ha with y | y
      · have := h.last a y
        omega
      · rw [List.mem_singleton.1 y]
        exact Int.le_refl _

theorem step_dests (s : State) (h : ∀ D, DestOK (s.dests D)) (o : Op) : ∀ D, DestOK ((step s o).1.dests D) := by
  by_cases hq : o.quiet = true
  · rw [(step_keep s o hq).2.2]; exact h
  · cases o with
    | post i x =>
      show ∀ D, DestOK ((post s i x).1.dests D)
      rw [post]
      split
      · exact h
      · exact h
    | deliver =>
      show ∀ D, DestOK ((deliver s).1.dests D)
      rw [deliver]
      split
      · exact h
      · exact h
      · split
        · exact h
        · rw [send]
          split
          · exact h
          · rename_i t _
            intro D
            show DestOK (upd s.dests t.dest ((s.dests t.dest).write _) D)
            by_cases hD : D = t.dest
            · subst hD
              rw [upd_same]
              exact write_ok (h _) _
            · rw [upd_other _ _ hD]
              exact h D
    | _ => exact absurd rfl hq

theorem dests_ok (ops : List Op) (D : Nat) : DestOK ((stateOf ops).dests D) := by
  refine runOps_invariant step (fun s => ∀ D, DestOK (s.dests D)) (fun s o h => step_dests s h o) init ?_ ops D
  intro D
  exact ⟨rfl, rfl, List.Pairwise.nil, fun m hm => by cases hm⟩

/-! ### nodes that were made -/

theorem made_snoc {ops o n} : Made (ops ++ [o]) n ↔ Made ops n ∨
    ((step (stateOf ops) o).2 = .made n ∧ (o = .node ∨ ∃ p ty name, o = .source p ty name)) := by
  unfold Made
  rw [res_snoc, List.zip_append (res_length _ _ _).symm]
  simp only [List.mem_append, List.zip_cons_cons, List.zip_nil_right, List.mem_singleton, Prod.mk.injEq]
  constructor
  · rintro (h | ⟨o', h | ⟨rfl, h⟩, h2⟩)
    · exact .inl (.inl h)
    · exact .inl (.inr ⟨o', h, h2⟩)
    · exact .inr ⟨h.symm, h2⟩
  · rintro ((h | ⟨o', h, h2⟩) | ⟨h, h2⟩)
    · exact .inl h
    · exact .inr ⟨o', .inl h, h2⟩
    · exact .inr ⟨o, .inr ⟨rfl, h.symm⟩, h2⟩

theorem made_iff {ops : List Op} : Legal ops → ∀ n, Made ops n ↔ n < (stateOf ops).next := by
  induction ops using snoc_induction with
  | h0 =>
    intro _ n
    show (n = 0 ∨ ∃ o, (o, Res.made n) ∈ [] ∧ _) ↔ n < 1
    simp
  | h1 ops o ih =>
    intro hl n
    obtain ⟨hl', hp⟩ := legal_snoc hl
    have hm := ih hl'
    obtain ⟨b, hi⟩ := inv_legal hl'
    change Inv b (stateOf ops) (world ops) at hi
    rw [made_snoc, hm, state_snoc]
    generalize stateOf ops = s at *
    have hno : (∀ p ty name, o ≠ .source p ty name) → o ≠ .node → (step s o).1.next = s.next →
        (n < s.next ∨ ((step s o).2 = .made n ∧ (o = .node ∨ ∃ p ty name, o = .source p ty name)) ↔ n < (step s o).1.next) := by
      intro h1 h2 h3
      rw [h3]
      constructor
      · rintro (h | ⟨-, h | ⟨p, ty, name, h⟩⟩)
        · exact h
        · exact absurd h h2
        · exact absurd h (h1 p ty name)
      · exact .inl
    cases o with
    | node =>
      show (n < s.next ∨ (Res.made s.next = .made n ∧ _)) ↔ n < s.next + 1
      simp only [Res.made.injEq, true_or, and_true]
      omega
    | source p ty name =>
      rw [step]
      split
      · have := newSource_inv hi.t (ty := ty) (name := name) hp
        split at this
        · obtain ⟨h1, -, r, h3, -⟩ := this
          rw [h1, h3]
          simp only [Res.made.injEq]
          constructor
          · rintro (h | ⟨h, -⟩) <;> omega
          · intro h
            rcases Nat.lt_or_ge n s.next with y | y
            · exact .inl y
            · exact .inr ⟨by omega, .inr ⟨p, ty, name, rfl⟩⟩
        · rw [this]
          simp
      · simp
    | addChild p c =>
      refine hno nofun nofun ?_
      rw [step]
      split
      · exact (addChild_keep s p c).2.2.2.2
      · rfl
    | makePrivate m =>
      refine hno nofun nofun ?_
      rw [step]
      split <;> rfl
    | register m k ty name e a =>
      refine hno nofun nofun ?_
      rw [step]
      split
      · exact (register_keep s m (.user k) ty name e a).2.2.2.2
      · rfl
    | deregister m k ty name a =>
      refine hno nofun nofun ?_
      rw [step]
      split
      · exact (deregister_keep s m (.user k) ty name a).2.2.2.2
      · rfl
    | tap => exact hno nofun nofun rfl
    | tapReset k m =>
      refine hno nofun nofun ?_
      rw [step]
      split
      · exact (tapReset_keep s k m).2.2.2.1
      · rfl
    | post i x =>
      refine hno nofun nofun ?_
      show (post s i x).1.next = _
      rw [post]
      split <;> rfl
    | deliver =>
      refine hno nofun nofun ?_
      show (deliver s).1.next = _
      rw [deliver]
      split
      · rfl
      · rfl
      · split
        · rfl
        · rw [send]
          split <;> rfl
    | observed i =>
      refine hno nofun nofun ?_
      rw [step]
      split <;> rfl

end Sparta.Notify
