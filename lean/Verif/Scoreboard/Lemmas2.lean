import Verif.Scoreboard.Lemmas
/-! Lemmas about the registers a view holds and about the printed ranges. -/
namespace Sparta.Scoreboard

theorem run_len (v : View) (t : List VEv) : (v.run t).2.length = t.length := by
  induction t generalizing v with
  | nil => rfl
  | cons e t ih => show (_ :: ((v.ev e).1.run t).2).length = _; rw [List.length_cons, ih]; rfl

theorem run_mask (v : View) (t : List VEv) : (v.run t).1.mask = t.foldl maskStep v.mask := by
  induction t generalizing v with
  | nil => rfl
  | cons e t ih => show ((v.ev e).1.run t).1.mask = _; rw [ih, ev_mask]; rfl

theorem flatten_range {α : Type} (l : List (List α)) :
    l.flatten = (List.range l.length).flatMap (fun j => (l[j]?).getD []) := by
  induction l with
  | nil => rfl
  | cons a l ih =>
    rw [List.flatten_cons, List.length_cons, List.range_succ_eq_map, List.flatMap_cons, List.flatMap_map, ih]
    rfl

theorem flatMap_congr' {α β : Type} {f g : α → List β} {l : List α} (h : ∀ x ∈ l, f x = g x) : l.flatMap f = l.flatMap g := by
  induction l with
  | nil => rfl
  | cons a l ih => rw [List.flatMap_cons, List.flatMap_cons, h a (by simp), ih (fun x hx => h x (by simp [hx]))]

theorem isSet_iff (v : View) (b : Mask) : v.isSet b = allReady b v.mask := by
  have := ready_eq ⟨b, 0, 0⟩ v.mask
  exact this

theorem updates_bit (us : List (Nat × Mask)) (m : Mask) (k : Nat) :
    ((us.map (fun x => VEv.update x.2)).foldl maskStep m).getLsbD k = (m.getLsbD k || us.any (fun x => x.2.getLsbD k)) := by
  induction us generalizing m with
  | nil => simp
  | cons u us ih =>
    rw [List.map_cons, List.foldl_cons, ih, List.any_cons]
    simp only [maskStep, BitVec.getLsbD_or, Bool.or_assoc]

theorem any_filter_split {α : Type} (l : List α) (p q : α → Bool) :
    (l.any q) = ((l.filter p).any q || (l.filter (fun x => !p x)).any q) := by
  induction l with
  | nil => rfl
  | cons a l ih =>
    rw [List.any_cons, ih, List.filter_cons, List.filter_cons]
    cases p a <;> simp [Bool.or_assoc, Bool.or_left_comm]

/-- a view and the updates under way to it together hold what the scoreboard holds -/
def Agree (m : Mask) (pend : List (Nat × Mask)) (M : Mask) : Prop :=
  ∀ k, k < 512 → (m.getLsbD k || pend.any (fun x => x.2.getLsbD k)) = M.getLsbD k

theorem and_zero_bit {a b : Mask} (h : a &&& b = 0) (k : Nat) : (a.getLsbD k && b.getLsbD k) = false := by
  rw [← BitVec.getLsbD_and, h]; simp

theorem agree_send {cfg : Cfg} {s : Net} {m : Mask} {b : Mask} {p i u : Nat} (hu : s.units[i]? = some u)
    (hlat : (cfg.lat p u).isSome) (h : Agree m (s.pend i) s.mask) :
    Agree ((s.atOnce cfg b p i).foldl maskStep m) ((s.send cfg b p).pend i) (s.send cfg b p).mask := by
  intro k hk
  have := h k hk
  obtain ⟨l, hl⟩ := Option.isSome_iff_exists.1 hlat
  have hto : s.latTo cfg p i = some l := by unfold Net.latTo; rw [hu]; exact hl
  show _ = (s.mask ||| b).getLsbD k
  rw [BitVec.getLsbD_or, ← this]
  show (_ || (s.pend i ++ s.posted cfg b p i).any _) = _
  unfold Net.atOnce Net.posted
  rw [hto]
  cases l with
  | zero =>
    rw [if_pos rfl]
    simp only [List.foldl_cons, List.foldl_nil, maskStep, BitVec.getLsbD_or, List.append_nil]
    cases m.getLsbD k <;> cases b.getLsbD k <;> simp
  | succ l =>
    rw [if_neg (by simp)]
    simp only [List.foldl_nil, List.any_append, List.any_cons, List.any_nil, Bool.or_false]
    cases m.getLsbD k <;> cases b.getLsbD k <;> simp

theorem zero_not_ready : allReady initMask 0 = false := by decide +kernel

theorem calm_legal {s : Net} {o : Op} (h : s.calm o) : s.legal o := by
  cases o with
  | createView u =>
    show s.mask ≠ 0
    intro e
    have h' : allReady initMask s.mask = true := h
    rw [e, zero_not_ready] at h'
    cases h'
  | setAll b => exact h
  | setFrom b p => exact h
  | _ => trivial

structure Inv26 (cfg : Cfg) (w : World) (s : Net) : Prop where
  rep : Rep cfg w s
  agree : ∀ (i : Nat) (v : View), w.views[i]? = some v → Agree v.mask (s.pend i) s.mask
  fresh : ∀ i, s.units.length ≤ i → s.pend i = []

theorem send_fresh {cfg : Cfg} {s : Net} (h : ∀ i, s.units.length ≤ i → s.pend i = []) (b : Mask) (p : Nat) :
    ∀ i, s.units.length ≤ i → (s.send cfg b p).pend i = [] := by
  intro i hi
  show s.pend i ++ s.posted cfg b p i = []
  rw [h i hi]
  unfold Net.posted Net.latTo
  rw [List.getElem?_eq_none hi]
  rfl

theorem fresh_step (cfg : Cfg) (s : Net) (o : Op) (h : ∀ i, s.units.length ≤ i → s.pend i = []) :
    ∀ i, (s.step cfg o).units.length ≤ i → (s.step cfg o).pend i = [] := by
  cases o with
  | createView u =>
    rw [st_createView]
    split
    · intro i hi
      have : (s.units ++ [u]).length ≤ i := hi
      rw [List.length_append] at this
      exact h i (by omega)
    · exact h
  | setAll b => exact h
  | setFrom b p =>
    rw [st_setFrom]
    split
    · exact send_fresh h b p
    · exact h
  | setReady v b =>
    rw [st_setReady]
    unfold Net.ready
    split
    · exact h
    · cases s.units[v]? with
      | none => exact h
      | some p => exact send_fresh h b p
  | clearBits b => exact h
  | isSet b => exact h
  | viewIsSet v b => exact h
  | register v c => exact h
  | clearCallbacks v k => exact h
  | tick =>
    rw [st_tick]
    intro i hi
    show (s.pend i).filter _ = []
    rw [h i hi]; rfl

theorem ready_units (cfg : Cfg) (s : Net) (v : Nat) (b : Mask) : (s.ready cfg v b).units = s.units := by
  unfold Net.ready
  split
  · rfl
  · cases s.units[v]? <;> rfl

theorem inv26_step {cfg : Cfg} (hlat : ∀ p u, p < cfg.units → u < cfg.units → (cfg.lat p u).isSome) {w : World} {s : Net} {o : Op}
    (h : Inv26 cfg w s) (hc : s.calm o) : Inv26 cfg (step cfg w o).1 (s.step cfg o) := by
  obtain ⟨h1, h2⟩ := rep_step cfg w s o h.rep (calm_legal hc)
  refine ⟨h1, ?_, fresh_step cfg s o h.fresh⟩
  intro i v' hv'
  by_cases hnew : i < w.views.length
  · -- an existing view
    have hv := List.getElem?_eq_getElem hnew
    generalize w.views[i] = v at hv
    rw [(h2 i v hv).1] at hv'
    cases hv'
    rw [run_mask]
    have ha := h.agree i v hv
    have hi : i < s.units.length := by rw [← h.rep.len]; exact hnew
    have hu : s.units[i]? = some s.units[i] := List.getElem?_eq_getElem hi
    have hult : s.units[i] < cfg.units := h.rep.tables.lt _ (List.getElem_mem hi)
    cases o with
    | createView u =>
      rw [ev_createView, st_createView]
      split <;> exact ha
    | setAll b =>
      rw [ev_setAll, st_setAll]
      intro k hk
      have := ha k hk
      show ((v.mask ||| b).getLsbD k || _) = (s.mask ||| b).getLsbD k
      rw [BitVec.getLsbD_or, BitVec.getLsbD_or, ← this]
      cases v.mask.getLsbD k <;> cases b.getLsbD k <;> simp
    | setFrom b p =>
      rw [ev_setFrom, st_setFrom]
      by_cases hp : p < cfg.units
      · rw [if_pos hp, if_pos hp]
        exact agree_send hu (hlat _ _ hp hult) ha
      · rw [if_neg hp, if_neg hp]; exact ha
    | setReady k b =>
      rw [ev_setReady, st_setReady]
      unfold Net.ready Net.readyAtOnce
      by_cases hb : b = 0
      · rw [if_pos hb, if_pos hb]; exact ha
      · rw [if_neg hb, if_neg hb]
        rcases Option.eq_none_or_eq_some (s.units[k]?) with e | ⟨p, e⟩
        · rw [e]; exact ha
        · rw [e]
          exact agree_send hu (hlat _ _ (h.rep.tables.lt _ (List.mem_of_getElem? e)) hult) ha
    | clearBits b =>
      rw [ev_clearBits, st_clearBits]
      intro k hk
      have := ha k hk
      show ((v.mask &&& ~~~b).getLsbD k || (s.pend i).any _) = (s.mask &&& ~~~b).getLsbD k
      rw [BitVec.getLsbD_and, BitVec.getLsbD_and, ← this, BitVec.getLsbD_not]
      have hp : b.getLsbD k = true → (s.pend i).any (fun x => x.2.getLsbD k) = false := by
        intro hbk
        rw [List.any_eq_false]
        intro x hx hxk
        have := and_zero_bit (hc i hi x hx) k
        rw [hxk, hbk] at this
        cases this
      cases hbk : b.getLsbD k with
      | false => simp [hk]
      | true => rw [hp hbk]; simp
    | isSet b => exact ha
    | viewIsSet k b => exact ha
    | register k c =>
      rw [ev_register]
      split <;> exact ha
    | clearCallbacks k c =>
      rw [ev_clearCallbacks]
      split <;> exact ha
    | tick =>
      rw [ev_tick, st_tick]
      intro k hk
      have := ha k hk
      rw [updates_bit]
      show (_ || ((s.pend i).filter _).any _) = s.mask.getLsbD k
      rw [← this, any_filter_split (s.pend i) (fun x => x.1 == s.now + 1), Bool.or_assoc]
  · -- a new view
    have hlen : i < (step cfg w o).1.views.length := (List.getElem?_eq_some_iff.1 hv').1
    cases o with
    | createView u =>
      by_cases hu : u < cfg.units
      · have hm : w.mask ≠ 0 := by rw [h.rep.mask]; exact calm_legal hc
        have hvs : (step cfg w (.createView u)).1.views = w.views ++ [((⟨u, initMask, []⟩ : View).ev (.update w.mask)).1] := by
          simp only [step, World.createView, hu, if_true, receive_eq hm]
        rw [hvs] at hv' hlen
        have hie : i = w.views.length := by
          rw [List.length_append, List.length_singleton] at hlen; omega
        subst hie
        rw [List.getElem?_append_right (Nat.le_refl _), Nat.sub_self, List.getElem?_cons_zero] at hv'
        cases hv'
        rw [st_createView, if_pos hu]
        intro k hk
        show ((initMask ||| w.mask).getLsbD k || (s.pend w.views.length).any _) = s.mask.getLsbD k
        rw [h.fresh _ (by rw [h.rep.len]; exact Nat.le_refl _), h.rep.mask, BitVec.getLsbD_or]
        have hr : allReady initMask s.mask = true := hc
        have := List.all_eq_true.1 hr k (by simpa using hk)
        cases e1 : initMask.getLsbD k <;> simp_all
      · exfalso
        have : (step cfg w (.createView u)).1 = w := by simp [step, World.createView, hu]
        rw [this] at hlen
        exact hnew hlen
    | _ =>
      exfalso
      have hl1 := h1.len
      have hl2 := h.rep.len
      rw [hl1] at hlen
      refine hnew ?_
      rw [hl2]
      refine Nat.lt_of_lt_of_le hlen (Nat.le_of_eq ?_)
      first
        | rfl
        | (rw [st_setFrom]; split <;> rfl)
        | (rw [st_setReady, ready_units])

theorem inv26_run {cfg : Cfg} (hlat : ∀ p u, p < cfg.units → u < cfg.units → (cfg.lat p u).isSome) (os : List Op) {w : World} {s : Net}
    (h : Inv26 cfg w s) (hc : Net.legalAll cfg Net.calm s os) : Inv26 cfg (runOps (step cfg) w os).1 (s.run cfg os) := by
  induction os generalizing w s with
  | nil => exact h
  | cons o os ih => exact ih (inv26_step hlat h hc.1) hc.2

theorem inv26_init (cfg : Cfg) : Inv26 cfg World.init Net.init :=
  ⟨rep_init cfg, fun i v h => by simp [World.init] at h, fun _ _ => rfl⟩

/-! ### latency -/

theorem isSet_twoPow (v : View) {k : Nat} (hk : k < 512) : v.isSet (BitVec.twoPow 512 k) = v.mask.getLsbD k := by
  rw [isSet_iff, Bool.eq_iff_iff]
  unfold allReady
  rw [List.all_eq_true]
  constructor
  · intro h
    have := h k (by simpa using hk)
    rw [BitVec.getLsbD_twoPow] at this
    simpa [hk] using this
  · intro h j hj
    rw [BitVec.getLsbD_twoPow]
    by_cases hjk : k = j
    · subst hjk; simp [h]
    · simp [hjk]

/-- the state of register `k` in a view with mask `m`, `n` cycles after a set at time `t0` with latency `L` -/
structure Lat (L k t0 n : Nat) (m : Mask) (pend : List (Nat × Mask)) (now : Nat) : Prop where
  now : now = t0 + n
  before : n < L → m.getLsbD k = false ∧ (∃ x ∈ pend, x.2.getLsbD k = true) ∧ ∀ x ∈ pend, x.2.getLsbD k = true → x.1 = t0 + L
  after : L ≤ n → m.getLsbD k = true

theorem Lat.final {L k t0 n : Nat} {m : Mask} {pend : List (Nat × Mask)} {now : Nat} (h : Lat L k t0 n m pend now) :
    m.getLsbD k = decide (L ≤ n) := by
  by_cases hn : L ≤ n
  · rw [h.after hn]; simp [hn]
  · rw [(h.before (by omega)).1]; simp [hn]

theorem latency_start (cfg : Cfg) {s : Net} {p i c L k : Nat} {b : Mask} {v : View} (hp : p < cfg.units) (hc : s.units[i]? = some c)
    (hL : cfg.lat p c = some L) (hb : b.getLsbD k = true) (hm : v.mask.getLsbD k = false)
    (hf : ∀ x ∈ s.pend i, x.2.getLsbD k = false) :
    Lat L k s.now 0 (v.run (s.evs cfg i (.setFrom b p))).1.mask ((s.step cfg (.setFrom b p)).pend i) (s.step cfg (.setFrom b p)).now := by
  have hto : s.latTo cfg p i = some L := by unfold Net.latTo; rw [hc]; exact hL
  rw [run_mask, ev_setFrom, st_setFrom, if_pos hp, if_pos hp]
  refine ⟨rfl, ?_, ?_⟩
  · intro h0
    obtain ⟨l, rfl⟩ : ∃ l, L = l + 1 := ⟨L - 1, by omega⟩
    have hpend : (s.send cfg b p).pend i = s.pend i ++ [(s.now + (l + 1), b)] := by
      show s.pend i ++ s.posted cfg b p i = _
      unfold Net.posted; rw [hto]
    unfold Net.atOnce
    rw [hto, if_neg (by simp), hpend]
    refine ⟨hm, ⟨(s.now + (l + 1), b), by simp, hb⟩, ?_⟩
    intro x hx hxk
    rcases List.mem_append.1 hx with hx | hx
    · rw [hf x hx] at hxk; cases hxk
    · rw [List.mem_singleton.1 hx]
  · intro h0
    have : L = 0 := by omega
    subst this
    unfold Net.atOnce
    rw [hto, if_pos rfl]
    show (v.mask ||| b).getLsbD k = true
    rw [BitVec.getLsbD_or, hb, Bool.or_true]

theorem Lat.send {cfg : Cfg} {s : Net} {L k t0 n p i : Nat} {m b : Mask} (h : Lat L k t0 n m (s.pend i) s.now)
    (hb : b.getLsbD k = false) :
    Lat L k t0 n ((s.atOnce cfg b p i).foldl maskStep m) ((s.send cfg b p).pend i) (s.send cfg b p).now := by
  have hm : ((s.atOnce cfg b p i).foldl maskStep m).getLsbD k = m.getLsbD k := by
    unfold Net.atOnce
    split
    · show (m ||| b).getLsbD k = _
      rw [BitVec.getLsbD_or, hb, Bool.or_false]
    · rfl
  have hpost : ∀ x ∈ s.posted cfg b p i, x.2.getLsbD k = false := by
    intro x hx
    unfold Net.posted at hx
    split at hx
    · rw [List.mem_singleton.1 hx]; exact hb
    · cases hx
  refine ⟨h.now, fun hn => ?_, fun hn => by rw [hm]; exact h.after hn⟩
  obtain ⟨h1, ⟨x, hx, hxk⟩, h3⟩ := h.before hn
  refine ⟨by rw [hm]; exact h1, ⟨x, List.mem_append_left _ hx, hxk⟩, ?_⟩
  intro y hy hyk
  rcases List.mem_append.1 hy with hy | hy
  · exact h3 y hy hyk
  · rw [hpost y hy] at hyk; cases hyk

theorem latency_step {cfg : Cfg} {s : Net} {L k t0 n i : Nat} {v : View} {o : Op} (hk : k < 512) (h : Lat L k t0 n v.mask (s.pend i) s.now)
    (ho : o.sets k = false ∧ o.clears k = false) :
    Lat L k t0 (n + ticks [o]) (v.run (s.evs cfg i o)).1.mask ((s.step cfg o).pend i) (s.step cfg o).now := by
  obtain ⟨ho1, ho2⟩ := ho
  rw [run_mask]
  cases o with
  | createView u =>
    rw [ev_createView, st_createView]
    split <;> exact h
  | setAll b =>
    rw [ev_setAll, st_setAll]
    have hb : b.getLsbD k = false := ho1
    have hm : (v.mask ||| b).getLsbD k = v.mask.getLsbD k := by rw [BitVec.getLsbD_or, hb, Bool.or_false]
    refine ⟨h.now, fun hn => ?_, fun hn => ?_⟩
    · obtain ⟨h1, h2, h3⟩ := h.before hn
      exact ⟨by show (v.mask ||| b).getLsbD k = false; rw [hm]; exact h1, h2, h3⟩
    · show (v.mask ||| b).getLsbD k = true
      rw [hm]; exact h.after hn
  | setFrom b p =>
    rw [ev_setFrom, st_setFrom]
    split
    · exact h.send ho1
    · exact h
  | setReady q b =>
    rw [ev_setReady, st_setReady]
    unfold Net.ready Net.readyAtOnce
    split
    · exact h
    · cases s.units[q]? with
      | none => exact h
      | some p => exact h.send ho1
  | clearBits b =>
    rw [ev_clearBits, st_clearBits]
    have hb : b.getLsbD k = false := ho2
    have hm : (v.mask &&& ~~~b).getLsbD k = v.mask.getLsbD k := by
      rw [BitVec.getLsbD_and, BitVec.getLsbD_not, hb]; simp [hk]
    refine ⟨h.now, fun hn => ?_, fun hn => ?_⟩
    · obtain ⟨h1, h2, h3⟩ := h.before hn
      exact ⟨by show (v.mask &&& ~~~b).getLsbD k = false; rw [hm]; exact h1, h2, h3⟩
    · show (v.mask &&& ~~~b).getLsbD k = true
      rw [hm]; exact h.after hn
  | isSet b => exact h
  | viewIsSet q b => exact h
  | register q c => rw [ev_register]; split <;> exact h
  | clearCallbacks q c => rw [ev_clearCallbacks]; split <;> exact h
  | tick =>
    rw [ev_tick, st_tick]
    have hn1 : n + ticks [Op.tick] = n + 1 := rfl
    rw [hn1]
    refine ⟨?_, fun hn => ?_, fun hn => ?_⟩
    · show s.now + 1 = t0 + (n + 1)
      rw [h.now]; omega
    · obtain ⟨h1, ⟨x, hx, hxk⟩, h3⟩ := h.before (by omega)
      refine ⟨?_, ⟨x, ?_, hxk⟩, ?_⟩
      · rw [updates_bit, h1, Bool.false_or, List.any_eq_false]
        intro y hy hyk
        have hy' := List.mem_filter.1 hy
        have e1 := h3 y hy'.1 hyk
        have e2 : y.1 = s.now + 1 := by simpa using hy'.2
        have := h.now
        omega
      · refine List.mem_filter.2 ⟨hx, ?_⟩
        have e1 := h3 x hx hxk
        have := h.now
        have : x.1 ≠ s.now + 1 := by omega
        simpa using this
      · intro y hy hyk
        exact h3 y (List.mem_filter.1 hy).1 hyk
    · rw [updates_bit]
      by_cases hn' : L ≤ n
      · rw [h.after hn', Bool.true_or]
      · obtain ⟨h1, ⟨x, hx, hxk⟩, h3⟩ := h.before (by omega)
        have e1 := h3 x hx hxk
        have := h.now
        have hxd : x.1 = s.now + 1 := by omega
        have : ((s.pend i).filter (fun x => x.1 == s.now + 1)).any (fun x => x.2.getLsbD k) = true := by
          rw [List.any_eq_true]
          exact ⟨x, List.mem_filter.2 ⟨hx, by simpa using hxd⟩, hxk⟩
        rw [this, Bool.or_true]

theorem latency_run (cfg : Cfg) (i L k t0 : Nat) (hk : k < 512) (os : List Op) (w : World) (s : Net) (hr : Rep cfg w s)
    (hl : Net.legalAll cfg Net.legal s os) (hos : ∀ o ∈ os, o.sets k = false ∧ o.clears k = false)
    (v : View) (hv : w.views[i]? = some v) (n : Nat) (h : Lat L k t0 n v.mask (s.pend i) s.now) :
    ∃ v', (runOps (step cfg) w os).1.views[i]? = some v' ∧
      Lat L k t0 (n + ticks os) v'.mask ((s.run cfg os).pend i) (s.run cfg os).now := by
  induction os generalizing w s v n with
  | nil => exact ⟨v, hv, h⟩
  | cons o os ih =>
    obtain ⟨h1, h2⟩ := rep_step cfg w s o hr hl.1
    obtain ⟨v', hv', h'⟩ := ih _ _ h1 hl.2 (fun o ho => hos o (by simp [ho])) _ (h2 i v hv).1 _ (latency_step hk h (hos o (by simp)))
    refine ⟨v', hv', ?_⟩
    have : ticks [o] + ticks os = ticks (o :: os) := by
      unfold ticks
      rw [show o :: os = [o] ++ os from rfl, List.countP_append]
    rw [Nat.add_assoc, this] at h'
    exact h'

/-! ### printing -/

/-- ranges with commas before all but the first -/
def renderC (c : Bool) : List (Nat × Nat) → List Tok
  | [] => []
  | r :: rs => (if c then [Tok.comma] else []) ++ renderRange r ++ renderC true rs

theorem renderC_true (r : Nat × Nat) (rs : List (Nat × Nat)) :
    renderC true (r :: rs) = [Tok.comma] ++ renderC false (r :: rs) := by simp [renderC]

theorem renderC_false (rs : List (Nat × Nat)) : renderC false rs = ((rs.map renderRange).intersperse [.comma]).flatten := by
  induction rs with
  | nil => rfl
  | cons r rs ih =>
    cases rs with
    | nil => simp [renderC]
    | cons r' rs =>
      have e1 : renderC false (r :: r' :: rs) = renderRange r ++ renderC true (r' :: rs) := by simp [renderC]
      rw [e1, renderC_true, ih]
      simp

theorem printLoop_spec (bit : Nat → Bool) (n : Nat) (hend : ¬ (2 ≤ n ∧ bit (n - 1) = true ∧ bit (n - 2) = true))
    (k : Nat) (hk : k ≤ n) :
    (∀ c st, ∃ rs, printLoop bit n k false c st = renderC c rs ∧ Ranges bit (n - k) n rs) ∧
    (∀ c st, st < n - k → (∀ i, st ≤ i → i < n - k → bit i = true) →
      ∃ e rs, printLoop bit n k true c st = (if st = e then [] else [.dash, .num e]) ++ renderC c rs ∧ st ≤ e ∧ n - k ≤ e + 1 ∧ e < n ∧
        (∀ i, st ≤ i → i ≤ e → bit i = true) ∧ (e + 1 < n → bit (e + 1) = false) ∧ Ranges bit (e + 1) n rs) := by
  induction k with
  | zero =>
    refine ⟨fun c st => ⟨[], rfl, fun i h1 h2 => by omega⟩, ?_⟩
    intro c st hst hb
    have : st = n - 1 := by
      rcases Nat.lt_or_ge st (n - 1) with h | h
      · exact absurd ⟨by omega, hb (n - 1) (by omega) (by omega), hb (n - 2) (by omega) (by omega)⟩ hend
      · omega
    refine ⟨n - 1, [], ?_, by omega, by omega, by omega, fun i h1 h2 => hb i h1 (by omega), fun h => by omega, fun i h1 h2 => by omega⟩
    rw [if_pos this]; rfl
  | succ k ih =>
    obtain ⟨ih1, ih2⟩ := ih (by omega)
    have hv : n - (k + 1) + 1 = n - k := by omega
    constructor
    · intro c st
      unfold printLoop
      dsimp only
      cases hb : bit (n - (k + 1)) with
      | true =>
        obtain ⟨e, rs, he, h1, h2, h3, h4, h5, h6⟩ := ih2 true (n - (k + 1)) (by omega)
          (fun i a b => by rw [show i = n - (k + 1) by omega]; exact hb)
        refine ⟨(n - (k + 1), e) :: rs, ?_, ⟨Nat.le_refl _, h1, h3, fun i a b => by omega, h4, h5, h6⟩⟩
        rw [if_pos rfl, if_neg (by simp), he, renderC]
        unfold renderRange
        by_cases hse : n - (k + 1) = e
        · simp only [hse, if_true]; simp
        · simp only [hse, if_false]; simp
      | false =>
        obtain ⟨rs, he, hr⟩ := ih1 c st
        rw [if_neg (by simp), if_neg (by simp), he]
        refine ⟨rs, rfl, ?_⟩
        cases rs with
        | nil =>
          intro i h1 h2
          by_cases hi : i = n - (k + 1)
          · rw [hi]; exact hb
          · exact hr i (by omega) h2
        | cons r rs =>
          obtain ⟨x, y⟩ := r
          obtain ⟨g1, g2, g3, g4, g5, g6, g7⟩ := hr
          refine ⟨by omega, g2, g3, ?_, g5, g6, g7⟩
          intro i h1 h2
          by_cases hi : i = n - (k + 1)
          · rw [hi]; exact hb
          · exact g4 i (by omega) h2
    · intro c st hst hbs
      unfold printLoop
      dsimp only
      cases hb : bit (n - (k + 1)) with
      | true =>
        obtain ⟨e, rs, he, h1, h2, h3, h4, h5, h6⟩ := ih2 c st (by omega)
          (fun i a b => by
            by_cases hi : i = n - (k + 1)
            · rw [hi]; exact hb
            · exact hbs i a (by omega))
        rw [if_pos rfl, if_pos rfl]
        exact ⟨e, rs, he, h1, by omega, h3, h4, h5, h6⟩
      | false =>
        obtain ⟨rs, he, hr⟩ := ih1 c st
        rw [if_neg (by simp), if_pos rfl, he]
        refine ⟨n - (k + 1) - 1, rs, ?_, by omega, by omega, by omega, fun i a b => hbs i a (by omega), ?_, ?_⟩
        · by_cases h : st + 1 = n - (k + 1)
          · rw [if_neg (by simp [h]), if_pos (by omega)]
          · rw [if_pos h, if_neg (by omega)]
        · intro _; rw [show n - (k + 1) - 1 + 1 = n - (k + 1) by omega]; exact hb
        · rw [show n - (k + 1) - 1 + 1 = n - (k + 1) by omega]
          cases rs with
          | nil =>
            intro i h1 h2
            by_cases hi : i = n - (k + 1)
            · rw [hi]; exact hb
            · exact hr i (by omega) h2
          | cons r rs =>
            obtain ⟨x, y⟩ := r
            obtain ⟨g1, g2, g3, g4, g5, g6, g7⟩ := hr
            refine ⟨by omega, g2, g3, ?_, g5, g6, g7⟩
            intro i h1 h2
            by_cases hi : i = n - (k + 1)
            · rw [hi]; exact hb
            · exact g4 i (by omega) h2

end Sparta.Scoreboard
