import Verif.Scoreboard.Lemmas2
/-! Properties C25, C26, C78 and C79. -/
namespace Sparta.Scoreboard

/-! ### C25: ready callbacks -/

/-- what `Fires` says, without recursion: event `k` is an update after which all registers of `c` are ready; no
earlier update had this effect and no earlier event cancelled `c` -/
theorem C25_fires_iff (m : Mask) (c : Cb) (t : List VEv) (k : Nat) :
    Fires m c t k = true ↔
      (∃ b, t[k]? = some (.update b)) ∧ allReady c.needed ((t.take (k + 1)).foldl maskStep m) = true ∧
      ∀ j < k, t[j]? ≠ some (.cancel c.inst) ∧
        ((∃ b, t[j]? = some (.update b)) → allReady c.needed ((t.take (j + 1)).foldl maskStep m) = false) := by
  induction t generalizing m k with
  | nil => simp [Fires]
  | cons e t ih =>
    cases k with
    | zero => cases e <;> simp [Fires, maskStep]
    | succ k =>
      have split : (∀ j < k + 1, (e :: t)[j]? ≠ some (.cancel c.inst) ∧
          ((∃ b, (e :: t)[j]? = some (.update b)) → allReady c.needed (((e :: t).take (j + 1)).foldl maskStep m) = false)) ↔
          ((e ≠ .cancel c.inst ∧ ((∃ b, e = .update b) → allReady c.needed (maskStep m e) = false)) ∧
          ∀ j < k, t[j]? ≠ some (.cancel c.inst) ∧
          ((∃ b, t[j]? = some (.update b)) → allReady c.needed ((t.take (j + 1)).foldl maskStep (maskStep m e)) = false)) := by
        constructor
        · intro h
          refine ⟨?_, fun j hj => ?_⟩
          · have := h 0 (by omega)
            simpa using this
          · have := h (j + 1) (by omega)
            simpa using this
        · rintro ⟨h0, h1⟩ j hj
          cases j with
          | zero => simpa using h0
          | succ j => simpa using h1 j (by omega)
      rw [split]
      have ih' := ih (maskStep m e) k
      have hF : Fires m c (e :: t) (k + 1) = true ↔
          ((e ≠ .cancel c.inst ∧ ((∃ b, e = .update b) → allReady c.needed (maskStep m e) = false)) ∧
            Fires (maskStep m e) c t k = true) := by
        cases e with
        | update b => simp [Fires, maskStep]
        | clear b => simp [Fires]
        | register c' => simp [Fires]
        | cancel q =>
          simp only [Fires, maskStep, Bool.and_eq_true, bne_iff_ne, ne_eq, VEv.cancel.injEq, reduceCtorEq, exists_false,
            false_implies, and_true]
          rw [eq_comm]
      rw [hF, ih']
      simp only [List.getElem?_cons_succ, List.take_succ_cons, List.foldl_cons]
      constructor
      · rintro ⟨a, b, c, d⟩; exact ⟨b, c, a, d⟩
      · rintro ⟨b, c, a, d⟩; exact ⟨a, b, c, d⟩

/-- a callback is called at most once -/
theorem C25_at_most_once (m : Mask) (c : Cb) (t : List VEv) (k k' : Nat) (h : Fires m c t k = true)
    (h' : Fires m c t k' = true) : k = k' := by
  have key : ∀ k k', k < k' → Fires m c t k = true → Fires m c t k' = true → False := by
    intro k k' hlt h h'
    obtain ⟨h1, h2, _⟩ := (C25_fires_iff m c t k).1 h
    obtain ⟨_, _, h3⟩ := (C25_fires_iff m c t k').1 h'
    have := (h3 k hlt).2 h1
    rw [h2] at this
    cases this
  rcases Nat.lt_trichotomy k k' with hl | he | hl
  · exact (key k k' hl h h').elim
  · exact he
  · exact (key k' k hl h' h).elim

/-- C25: for every latency table and every history, a call runs exactly the callbacks of a view that are due in the
events the view sees in that call: in the order of these events, in each event in the order of registration, each
with the registers of that update. `u` is the unit of the view; `os` is what happens after its creation. -/
theorem C25_ready_callbacks (cfg : Cfg) (os0 : List Op) (u : Nat) (os : List Op) (o : Op) (hu : u < cfg.units)
    (hl : Net.legalAll cfg Net.legal Net.init ((os0 ++ [.createView u]) ++ (os ++ [o]))) :
    let s0 := Net.init.run cfg os0
    let i := s0.units.length
    let s1 := s0.step cfg (.createView u)
    let before := s1.trace cfg i os
    let now := (s1.run cfg os).evs cfg i o
    ((runOps (step cfg) World.init ((os0 ++ [.createView u]) ++ (os ++ [o]))).2.getLast?.map (·.firedOf i)) =
      some ((List.range now.length).flatMap (fun j =>
        (expected (initMask ||| s0.mask) (before ++ now) (before.length + j)).map (fun c => ⟨c, argOf now[j]?⟩))) := by
  intro s0 i s1 before now
  obtain ⟨hl1, hl2⟩ := (legalAll_append cfg _ _ _ _).1 hl
  obtain ⟨hl0, hlc⟩ := (legalAll_append cfg _ _ _ _).1 hl1
  have hs1 : Net.init.run cfg (os0 ++ [.createView u]) = s1 := run_append' cfg _ _ _
  rw [hs1] at hl2
  obtain ⟨hl3, hl4⟩ := (legalAll_append cfg _ _ _ _).1 hl2
  obtain ⟨hr0, _⟩ := rep_run cfg _ _ os0 (rep_init cfg) hl0
  generalize hw0 : (runOps (step cfg) World.init os0).1 = w0 at hr0
  have hmask : w0.mask ≠ 0 := by rw [hr0.mask]; exact hlc.1
  have hrep1 := (rep_step cfg w0 s0 (.createView u) hr0 hlc.1).1
  have hvs : (step cfg w0 (.createView u)).1.views = w0.views ++ [((⟨u, initMask, []⟩ : View).ev (.update w0.mask)).1] := by
    simp only [step, World.createView, hu, if_true, receive_eq hmask]
  have hv : (step cfg w0 (.createView u)).1.views[i]? = some ((⟨u, initMask, []⟩ : View).ev (.update w0.mask)).1 := by
    rw [hvs, List.getElem?_append_right (by rw [hr0.len]; exact Nat.le_refl _)]
    rw [show i - w0.views.length = 0 by rw [hr0.len]; exact Nat.sub_self _]
    rfl
  generalize hvv : ((⟨u, initMask, []⟩ : View).ev (.update w0.mask)).1 = v at hv
  have hvm : v.mask = initMask ||| s0.mask := by rw [← hvv, ← hr0.mask]; rfl
  have hvc : v.cbs = [] := by rw [← hvv]; rfl
  generalize hw1 : (step cfg w0 (.createView u)).1 = w1 at hv hrep1
  obtain ⟨hrep2, hview⟩ := rep_run cfg w1 s1 os hrep1 hl3
  have hvi := hview i v hv
  generalize hw2 : (runOps (step cfg) w1 os).1 = w2 at hrep2 hvi
  obtain ⟨_, hok⟩ := rep_step cfg w2 _ o hrep2 hl4.1
  have hfire := (hok i _ hvi).2
  have hlast : (runOps (step cfg) World.init ((os0 ++ [.createView u]) ++ (os ++ [o]))).2.getLast? = some (step cfg w2 o).2 := by
    have e1 : (runOps (step cfg) World.init (os0 ++ [Op.createView u])).1 = w1 := by
      rw [runOps_append, hw0]; exact hw1
    rw [runOps_append_snd _ _ (os0 ++ [Op.createView u]), e1, runOps_append_snd _ _ os, hw2]
    show (_ ++ (_ ++ [(step cfg w2 o).2])).getLast? = _
    simp
  rw [hlast, Option.map_some]
  congr 1
  show (step cfg w2 o).2.firedOf i = _
  rw [hfire, flatten_range, run_len]
  apply flatMap_congr'
  intro j hj
  have hj' : j < now.length := by simpa using hj
  have h1 : ((v.run before).1.run now).2[j]? = (v.run (before ++ now)).2[before.length + j]? := by
    rw [(run_append v before now).2, List.getElem?_append_right (by rw [run_len]; omega), run_len, Nat.add_sub_cancel_left]
  have h2 := run_out v (before ++ now) (before.length + j) (by rw [List.length_append]; omega)
  show ((((v.run before).1.run now).2)[j]?).getD [] = _
  rw [h1, h2, hvc, hvm, List.getElem?_append_right (by omega), Nat.add_sub_cancel_left]
  rfl

/-- unit 0 produces for unit 0 at once and for unit 1 after two cycles, unit 1 for unit 0 after one cycle -/
def cfgEx : Cfg := ⟨2, fun p u => if p = 0 then (if u = 0 then some 0 else some 2) else (if u = 0 then some 1 else some 0)⟩

/-- a history with two views; a callback of view 1 needs two registers and another needs one of them -/
def histEx : List Op := ([.createView 0] ++ [.createView 1]) ++
  ([.clearBits 0xff00#512, .register 1 ⟨0x300#512, 1, 10⟩, .register 1 ⟨0x100#512, 2, 11⟩, .register 0 ⟨0x100#512, 2, 12⟩,
    .setFrom 0x100#512 0, .tick, .setFrom 0x200#512 0, .tick] ++ [.tick])

example : Net.legalAll cfgEx Net.legal Net.init histEx ∧
    (runOps (step cfgEx) World.init histEx).2.map (·.firedOf 1) =
      [[], [], [], [], [], [], [], [], [], [⟨⟨0x100#512, 2, 11⟩, 0x100#512⟩], [⟨⟨0x300#512, 1, 10⟩, 0x200#512⟩]] := by
  decide +kernel

/-! ### C26: a view agrees with the scoreboard -/

/-- C26, for tables without missing latencies and histories in which no register is cleared while an update for it
is under way and views are created only while the initially ready registers are ready: a view to which no update is
under way answers exactly like the scoreboard. The full statement (all histories and tables) fails, see the theorems
`C26_..._violated`. -/
theorem C26_agree_partial (cfg : Cfg) (hlat : ∀ p u, p < cfg.units → u < cfg.units → (cfg.lat p u).isSome) (os : List Op)
    (hl : Net.legalAll cfg Net.calm Net.init os) (i : Nat) (hi : i < (Net.init.run cfg os).units.length)
    (hp : (Net.init.run cfg os).pend i = []) (b : Mask) :
    (step cfg (runOps (step cfg) World.init os).1 (.viewIsSet i b)).2 =
      (step cfg (runOps (step cfg) World.init os).1 (.isSet b)).2 := by
  have h := inv26_run hlat os (inv26_init cfg) hl
  generalize (runOps (step cfg) World.init os).1 = w at h
  generalize Net.init.run cfg os = s at h hi hp
  obtain ⟨v, hv⟩ : ∃ v, w.views[i]? = some v :=
    ⟨_, List.getElem?_eq_getElem (show i < w.views.length by rw [h.rep.len]; exact hi)⟩
  have ha := h.agree i v hv
  rw [hp, ← h.rep.mask] at ha
  have hm : v.mask = w.mask := by
    apply BitVec.eq_of_getLsbD_eq
    intro k hk
    simpa using ha k hk
  simp only [step, hv]
  rw [View.isSet, hm]
  rw [Bool.beq_comm]

/-- under the same conditions a view never reports a register ready that the scoreboard does not -/
theorem C26_never_early_partial (cfg : Cfg) (hlat : ∀ p u, p < cfg.units → u < cfg.units → (cfg.lat p u).isSome) (os : List Op)
    (hl : Net.legalAll cfg Net.calm Net.init os) (i : Nat) (b : Mask)
    (h1 : (step cfg (runOps (step cfg) World.init os).1 (.viewIsSet i b)).2 = .bool true) :
    (step cfg (runOps (step cfg) World.init os).1 (.isSet b)).2 = .bool true := by
  have h := inv26_run hlat os (inv26_init cfg) hl
  generalize (runOps (step cfg) World.init os).1 = w at h h1
  generalize Net.init.run cfg os = s at h
  rcases Option.eq_none_or_eq_some (w.views[i]?) with e | ⟨v, e⟩
  · simp [step, e] at h1
  · simp only [step, e, Res.bool.injEq] at h1
    rw [isSet_iff] at h1
    have h2 : w.mask &&& b = b := by
      have hr := (ready_eq ⟨b, 0, 0⟩ w.mask)
      have : allReady b w.mask = true := by
        refine List.all_eq_true.2 (fun k hk => ?_)
        have hk' : k < 512 := by simpa using hk
        have hb := List.all_eq_true.1 h1 k hk
        have ha := h.agree i v e k hk'
        rw [h.rep.mask, ← ha]
        cases e1 : b.getLsbD k with
        | false => rfl
        | true =>
          rw [e1] at hb
          have hb' : v.mask.getLsbD k = true := by simpa using hb
          rw [hb']; rfl
      rw [this] at hr
      simp only [Cb.ready, beq_iff_eq] at hr
      exact hr.symm
    simp [step, h2]

example : (∀ p u, p < cfgEx.units → u < cfgEx.units → (cfgEx.lat p u).isSome) ∧
    Net.legalAll cfgEx Net.calm Net.init histEx ∧ (Net.init.run cfgEx histEx).pend 1 = [] ∧
    (step cfgEx (runOps (step cfgEx) World.init histEx).1 (.viewIsSet 1 0x300#512)).2 = .bool true ∧
    (step cfgEx (runOps (step cfgEx) World.init histEx).1 (.viewIsSet 1 0x400#512)).2 = .bool false := by
  refine ⟨?_, by decide +kernel⟩
  intro p u _ _
  simp only [cfgEx]
  split <;> split <;> rfl

/-- C26 fails: a register cleared while an update for it is under way becomes ready in the view when the update arrives -/
theorem C26_clear_in_flight_violated :
    (runOps (step cfgEx) World.init [.createView 1, .clearBits 0x100#512, .setFrom 0x100#512 0, .clearBits 0x100#512, .tick, .tick,
        .tick, .isSet 0x100#512, .viewIsSet 0 0x100#512]).2 =
      [.done [], .done [], .done [], .done [], .done [], .done [], .done [], .bool false, .bool true] := by decide +kernel

theorem run_cons (cfg : Cfg) (w : World) (o : Op) (os : List Op) :
    (runOps (step cfg) w (o :: os)).2 = (step cfg w o).2 :: (runOps (step cfg) (step cfg w o).1 os).2 := rfl

theorem viewIsSet_of {cfg : Cfg} {w : World} {i : Nat} {v : View} (h : w.views[i]? = some v) (b : Mask) :
    (step cfg w (.viewIsSet i b)).2 = .bool (v.isSet b) := by
  simp only [step, h]

/-- C26 fails: a view created after one of the initially ready registers was cleared reports that register ready -/
theorem C26_new_view_violated (u : Nat) (cfg : Cfg) (hu : u < cfg.units) :
    (runOps (step cfg) World.init [.clearBits 1#512, .createView u, .isSet 1#512, .viewIsSet 0 1#512]).2 =
      [.done [], .done [], .bool false, .bool true] := by
  have h1 : (step cfg World.init (.clearBits 1#512)) = (⟨initMask &&& ~~~1#512, [], fun _ => [], fun _ => [], [], 0, false⟩, .done []) := by
    have : World.allViews cfg World.init = [] := by
      unfold World.allViews
      rw [List.flatMap_eq_nil_iff]
      intro x _; rfl
    simp only [step, World.clearBits, this]; rfl
  have hm : (initMask &&& ~~~1#512) ≠ 0 := by decide +kernel
  have e1 : ((initMask &&& ~~~1#512) &&& 1#512 == 1#512) = false := by decide +kernel
  have e2 : (1#512 == (initMask ||| (initMask &&& ~~~1#512)) &&& 1#512) = true := by decide +kernel
  rw [run_cons, h1]
  simp only [runOps, step, World.createView, hu, if_true, receive_eq hm, View.isSet, View.ev, List.nil_append,
    List.getElem?_cons_zero, e1, e2]

example : (0 : Nat) < cfgEx.units := by decide

/-- C26 fails: creating a view while no register is ready throws, and the view stays registered: the next set is undefined -/
theorem C26_empty_violated :
    (runOps (step cfgEx) World.init [.clearBits initMask, .createView 0, .setAll 1#512]).2 = [.done [], .threw, .ub] := by decide +kernel

/-- C26 fails: a unit without a latency from the producer never sees the register -/
theorem C26_no_latency_violated (n : Nat) :
    let cfg : Cfg := ⟨2, fun _ _ => none⟩
    let w := (runOps (step cfg) World.init ([.createView 1, .clearBits 1#512, .setFrom 1#512 0] ++ List.replicate n .tick)).1
    (step cfg w (.isSet 1#512)).2 = .bool true ∧ (step cfg w (.viewIsSet 0 1#512)).2 = .bool false := by
  intro cfg w
  have h : ∀ (n : Nat) (x : World), x.flight = [] → (runOps (step cfg) x (List.replicate n .tick)).1.mask = x.mask ∧
      (runOps (step cfg) x (List.replicate n .tick)).1.views = x.views := by
    intro n
    induction n with
    | zero => intro x _; exact ⟨rfl, rfl⟩
    | succ n ih =>
      intro x hx
      have e : (step cfg x .tick).1 = { x with now := x.now + 1, flight := [] } := by
        simp only [step, World.tick, hx, List.filter_nil, deliverAll]
      rw [List.replicate_succ]
      have := ih (step cfg x .tick).1 (by rw [e])
      show (runOps (step cfg) (step cfg x .tick).1 _).1.mask = _ ∧ (runOps (step cfg) (step cfg x .tick).1 _).1.views = _
      rw [this.1, this.2, e]
      exact ⟨rfl, rfl⟩
  have hw : w = (runOps (step cfg) (runOps (step cfg) World.init [.createView 1, .clearBits 1#512, .setFrom 1#512 0]).1 (List.replicate n .tick)).1 :=
    runOps_append _ _ _ _
  have hf : (runOps (step cfg) World.init [.createView 1, .clearBits 1#512, .setFrom 1#512 0]).1.flight = [] := by decide +kernel
  obtain ⟨h1, h2⟩ := h n _ hf
  rw [← hw] at h1 h2
  have e1 : ((runOps (step cfg) World.init [.createView 1, .clearBits 1#512, .setFrom 1#512 0]).1.mask &&& 1#512 == 1#512) = true := by decide +kernel
  have e2 : ((runOps (step cfg) World.init [.createView 1, .clearBits 1#512, .setFrom 1#512 0]).1.views[0]?.map (fun v => v.isSet 1#512)) = some false := by decide +kernel
  refine ⟨?_, ?_⟩
  · simp only [step, h1, e1]
  · rw [← h2] at e2
    obtain ⟨v, hv, hs⟩ := Option.map_eq_some_iff.1 e2
    simp only [step, hv, hs]

/-! ### C78: forwarding latency -/

/-- C78: a register set by a producer of unit `p` becomes ready in a view of unit `c` exactly `L` cycles later, where `L`
is the latency from `p` to `c`: after `n` cycles the view reports it ready iff `L ≤ n`. `os` is any history in between
that does not set or clear the register. -/
theorem C78_latency (cfg : Cfg) (os0 os : List Op) (p i c L k : Nat) (b : Mask) (hp : p < cfg.units)
    (hl : Net.legalAll cfg Net.legal Net.init ((os0 ++ [.setFrom b p]) ++ os))
    (hc : (Net.init.run cfg os0).units[i]? = some c) (hL : cfg.lat p c = some L)
    (hk : k < 512) (hb : b.getLsbD k = true)
    (hv : (step cfg (runOps (step cfg) World.init os0).1 (.viewIsSet i (BitVec.twoPow 512 k))).2 = .bool false)
    (hf : ∀ x ∈ (Net.init.run cfg os0).pend i, x.2.getLsbD k = false)
    (hos : ∀ o ∈ os, o.sets k = false ∧ o.clears k = false) :
    (step cfg (runOps (step cfg) World.init ((os0 ++ [.setFrom b p]) ++ os)).1 (.viewIsSet i (BitVec.twoPow 512 k))).2 =
      .bool (decide (L ≤ ticks os)) := by
  obtain ⟨hl1, hl2⟩ := (legalAll_append cfg _ _ _ _).1 hl
  obtain ⟨hl0, hls⟩ := (legalAll_append cfg _ _ _ _).1 hl1
  obtain ⟨hr0, _⟩ := rep_run cfg _ _ os0 (rep_init cfg) hl0
  have hs1 : Net.init.run cfg (os0 ++ [.setFrom b p]) = (Net.init.run cfg os0).step cfg (.setFrom b p) := run_append' cfg _ _ _
  rw [hs1] at hl2
  have hw1 : (runOps (step cfg) World.init (os0 ++ [.setFrom b p])).1 = (step cfg (runOps (step cfg) World.init os0).1 (.setFrom b p)).1 :=
    runOps_append _ _ _ _
  rw [runOps_append, hw1]
  generalize (runOps (step cfg) World.init os0).1 = w0 at hr0 hv
  generalize Net.init.run cfg os0 = s0 at hr0 hc hf hls hl2
  obtain ⟨v0, hv0⟩ : ∃ v, w0.views[i]? = some v := by
    have := (List.getElem?_eq_some_iff.1 hc).1
    exact ⟨_, List.getElem?_eq_getElem (by rw [hr0.len]; exact this)⟩
  have hm0 : v0.mask.getLsbD k = false := by
    simp only [step, hv0, Res.bool.injEq] at hv
    rw [isSet_twoPow _ hk] at hv
    exact hv
  obtain ⟨hr1, hok⟩ := rep_step cfg w0 s0 (.setFrom b p) hr0 hls.1
  have hv1 := (hok i v0 hv0).1
  obtain ⟨v, hv⟩ := latency_run cfg i L k s0.now hk os _ _ hr1 hl2 hos _ hv1 0 (latency_start cfg hp hc hL hb hm0 hf)
  rw [viewIsSet_of hv.1, isSet_twoPow _ hk]
  rw [Nat.zero_add] at hv
  rw [hv.2.final]

example : Net.legalAll cfgEx Net.legal Net.init (([.createView 1, .clearBits 0x100#512] ++ [.setFrom 0x100#512 0]) ++
      [.tick, .setAll 0x200#512, .createView 0, .tick]) ∧
    (Net.init.run cfgEx [.createView 1, .clearBits 0x100#512]).units[0]? = some 1 ∧ cfgEx.lat 0 1 = some 2 ∧ (8 : Nat) < 512 ∧
    (0x100#512).getLsbD 8 = true ∧
    (step cfgEx (runOps (step cfgEx) World.init [.createView 1, .clearBits 0x100#512]).1 (.viewIsSet 0 (BitVec.twoPow 512 8))).2 = .bool false ∧
    (∀ x ∈ (Net.init.run cfgEx [.createView 1, .clearBits 0x100#512]).pend 0, x.2.getLsbD 8 = false) ∧
    (∀ o ∈ [Op.tick, .setAll 0x200#512, .createView 0, .tick], o.sets 8 = false ∧ o.clears 8 = false) := by
  decide +kernel

/-! ### C79: printing -/

/-- C79, for sets in which no range of two or more bits reaches the last position: the printed text is the list of
the maximal ranges of set bits. The full statement (all sets) fails, see `C79_last_range_violated`. -/
theorem C79_ranges_partial (n : Nat) (bit : Nat → Bool) (h : ¬ (2 ≤ n ∧ bit (n - 1) = true ∧ bit (n - 2) = true)) :
    ∃ rs, Ranges bit 0 n rs ∧ printBitSet n bit = render rs := by
  obtain ⟨rs, h1, h2⟩ := (printLoop_spec bit n h n (Nat.le_refl n)).1 false 0
  rw [Nat.sub_self] at h2
  refine ⟨rs, h2, ?_⟩
  unfold printBitSet render
  rw [h1, renderC_false]
  rfl

example : ¬ (2 ≤ 512 ∧ (fun i => decide (i < 5 ∨ i = 7 ∨ i = 511)) (512 - 1) = true ∧ (fun i => decide (i < 5 ∨ i = 7 ∨ i = 511)) (512 - 2) = true) ∧
    printBitSet 512 (fun i => decide (i < 5 ∨ i = 7 ∨ i = 511)) = render [(0, 4), (7, 7), (511, 511)] := by decide +kernel

/-- C79 fails: a range that reaches the last position is printed like its first element alone -/
theorem C79_last_range_violated (n a : Nat) (h : a + 1 < n) :
    Ranges (fun i => decide (a ≤ i)) 0 n [(a, n - 1)] ∧ printBitSet n (fun i => decide (a ≤ i)) = render [(a, a)] ∧
    printBitSet n (fun i => decide (i = a)) = render [(a, a)] := by
  refine ⟨⟨Nat.zero_le _, by omega, by omega, fun i _ h => by simp; omega, fun i h _ => by simpa using h, fun h => by omega,
    fun i h1 h2 => by omega⟩, ?_, ?_⟩
  · have l1 : ∀ k st, k ≤ n → a ≤ n - k → printLoop (fun i => decide (a ≤ i)) n k true true st = [] := by
      intro k
      induction k with
      | zero => intros; rfl
      | succ k ih =>
        intro st h1 h2
        unfold printLoop
        simp only [h2, decide_true, if_true]
        exact ih st (by omega) (by omega)
    have l2 : ∀ k st, k ≤ n → n - k ≤ a → 1 ≤ k → printLoop (fun i => decide (a ≤ i)) n k false false st = [.num a] := by
      intro k
      induction k with
      | zero => intro _ _ _ h; omega
      | succ k ih =>
        intro st h1 h2 _
        unfold printLoop
        by_cases he : a ≤ n - (k + 1)
        · simp only [he, decide_true, if_true, Bool.false_eq_true, if_false]
          rw [l1 k _ (by omega) (by omega), show n - (k + 1) = a by omega]
          rfl
        · simp only [he, decide_false, Bool.false_eq_true, if_false]
          exact ih st (by omega) (by omega) (by omega)
    unfold printBitSet
    rw [l2 n 0 (Nat.le_refl n) (by omega) (by omega)]
    simp [render, renderRange]
  · have l1 : ∀ k c st, k ≤ n → a < n - k → printLoop (fun i => decide (i = a)) n k false c st = [] := by
      intro k
      induction k with
      | zero => intros; rfl
      | succ k ih =>
        intro c st h1 h2
        unfold printLoop
        have : ¬ n - (k + 1) = a := by omega
        simp only [this, decide_false, Bool.false_eq_true, if_false]
        exact ih c st (by omega) (by omega)
    have l2 : ∀ k st, k ≤ n → n - k ≤ a → 2 ≤ k → printLoop (fun i => decide (i = a)) n k false false st = [.num a] := by
      intro k
      induction k with
      | zero => intro _ _ _ h; omega
      | succ k ih =>
        intro st h1 h2 h3
        unfold printLoop
        by_cases he : n - (k + 1) = a
        · simp only [he, decide_true, if_true, Bool.false_eq_true, if_false]
          cases k with
          | zero => omega
          | succ k =>
            unfold printLoop
            have e1 : ¬ n - (k + 1) = a := by omega
            have e2 : a + 1 = n - (k + 1) := by omega
            simp only [e1, decide_false, Bool.false_eq_true, if_false, if_true, e2, ne_eq, not_true_eq_false]
            rw [l1 k _ _ (by omega) (by omega)]
            rfl
        · simp only [he, decide_false, Bool.false_eq_true, if_false]
          exact ih st (by omega) (by omega) (by omega)
    unfold printBitSet
    rw [l2 n 0 (Nat.le_refl n) (by omega) (by omega)]
    simp [render, renderRange]

example : 509 + 1 < 512 := by decide

end Sparta.Scoreboard
