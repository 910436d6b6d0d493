import Verif.Cherry.Steps
/-! The tables: what is written and what the loader finds. -/
namespace Sparta.Cherry
open Sparta.Checkpoint
open Sparta.ArchData (AD)

/-! ### runs of equal ticks -/

/-- the runs stand for consecutive checkpoints from `a` on with these ticks -/
def Cover : List Run → Nat → List Nat → Prop
  | [], _, ts => ts = []
  | r :: rs, a, ts => r.first = a ∧ a ≤ r.last ∧ ∃ ts', ts = List.replicate (r.last - a + 1) r.tick ++ ts' ∧ Cover rs (r.last + 1) ts'

theorem addRun_append {d : List Run} {r : Run} (runs : List Run) (a t : Nat) :
    addRun (d ++ r :: runs) a t = d ++ addRun (r :: runs) a t := by
  unfold addRun
  have h : ∃ x, (r :: runs).getLast? = some x := ⟨_, List.getLast?_eq_some_getLast (by simp)⟩
  obtain ⟨x, hx⟩ := h
  rw [List.getLast?_append, hx]
  dsimp only [Option.or]
  by_cases e : x.tick = t
  · rw [if_pos e, if_pos e, List.dropLast_append_of_ne_nil (by simp), List.append_assoc]
  · rw [if_neg e, if_neg e, List.append_assoc]

theorem cover_snoc : ∀ (runs : List Run) (a : Nat) (ts : List Nat) (t : Nat), Cover runs a ts →
    Cover (addRun runs (a + ts.length) t) a (ts ++ [t])
  | [], a, ts, t, h => by
    have h : ts = [] := h
    subst h
    refine ⟨rfl, Nat.le_refl _, [], ?_, rfl⟩
    simp
  | [r], a, ts, t, ⟨h1, h2, ts', h3, h4⟩ => by
    have h4 : ts' = [] := h4
    subst h4
    rw [List.append_nil] at h3
    subst h3
    unfold addRun
    simp only [List.getLast?_singleton, List.length_replicate, List.dropLast_singleton, List.nil_append]
    by_cases e : r.tick = t
    · rw [if_pos e]
      refine ⟨h1, by dsimp only; omega, [], ?_, rfl⟩
      dsimp only
      rw [show a + (r.last - a + 1) - a + 1 = (r.last - a + 1) + 1 by omega, List.append_nil, e]
      exact (List.replicate_succ' ..).symm
    · rw [if_neg e]
      refine ⟨h1, h2, [t], rfl, by dsimp only; omega, by dsimp only; omega, [], ?_, rfl⟩
      dsimp only
      rw [show a + (r.last - a + 1) - (r.last + 1) = 0 by omega]
      rfl
  | r :: r2 :: rs, a, ts, t, ⟨h1, h2, ts', h3, h4⟩ => by
    have ih := cover_snoc (r2 :: rs) (r.last + 1) ts' t h4
    have hl : a + ts.length = r.last + 1 + ts'.length := by
      rw [h3]; simp; omega
    have := addRun_append (d := [r]) (r := r2) rs (a + ts.length) t
    rw [show r :: r2 :: rs = [r] ++ r2 :: rs from rfl, this]
    refine ⟨h1, h2, ts' ++ [t], by rw [h3, List.append_assoc], ?_⟩
    rw [hl]
    exact ih

theorem addRun_ne (runs : List Run) (a t : Nat) : addRun runs a t ≠ [] := by
  unfold addRun
  cases runs.getLast? with
  | none => simp
  | some r =>
    dsimp only
    by_cases e : r.tick = t
    · rw [if_pos e]; simp
    · rw [if_neg e]; simp

theorem addRuns_append (d : List Run) : ∀ (us : List Nat) (runs : List Run) (a : Nat), runs ≠ [] →
    addRuns (d ++ runs) a us = d ++ addRuns runs a us
  | [], _, _, _ => rfl
  | t :: ts, [], a, h => absurd rfl h
  | t :: ts, r :: rs, a, _ => by
    show addRuns (addRun (d ++ r :: rs) a t) (a + 1) ts = d ++ addRuns (addRun (r :: rs) a t) (a + 1) ts
    rw [addRun_append, addRuns_append d ts _ _ (addRun_ne _ _ _)]

theorem addRuns_ne : ∀ (us : List Nat) (runs : List Run) (a : Nat), runs ≠ [] → addRuns runs a us ≠ []
  | [], _, _, h => h
  | _ :: ts, _, _, _ => addRuns_ne ts _ _ (addRun_ne _ _ _)

theorem cover_addRuns : ∀ (us : List Nat) (runs : List Run) (ts : List Nat), Cover runs 0 ts →
    Cover (addRuns runs ts.length us) 0 (ts ++ us)
  | [], runs, ts, h => by rw [List.append_nil]; exact h
  | u :: us, runs, ts, h => by
    have h1 := cover_snoc runs 0 ts u h
    rw [Nat.zero_add] at h1
    have h2 := cover_addRuns us _ _ h1
    rw [List.length_append, List.append_assoc] at h2
    exact h2

theorem cover_locate (idx : Nat) : ∀ (runs : List Run) (a cur : Nat) (ts : List Nat), Cover runs a ts → cur ≤ idx →
    ∀ t, ts[idx - cur]? = some t → locate idx runs cur = some (a + (idx - cur), t)
  | [], a, cur, ts, h, _, t, ht => by
    have h : ts = [] := h
    subst h
    simp at ht
  | r :: rs, a, cur, ts, ⟨h1, h2, ts', h3, h4⟩, hc, t, ht => by
    unfold locate
    rw [h1]
    by_cases c : idx < cur + (r.last - a + 1)
    · rw [if_pos c]
      rw [h3, List.getElem?_append_left (by simp; omega), List.getElem?_replicate, if_pos (by omega)] at ht
      cases ht
      rfl
    · rw [if_neg c]
      rw [h3, List.getElem?_append_right (by simp; omega), List.length_replicate] at ht
      rw [cover_locate idx rs (r.last + 1) (cur + (r.last - a + 1)) ts' h4 (by omega) t (by rw [← ht]; congr 1; omega)]
      congr 2
      omega

theorem cover_sum : ∀ (runs : List Run) (a : Nat) (ts : List Nat), Cover runs a ts →
    (runs.map fun r => r.last - r.first + 1).sum = ts.length
  | [], _, ts, h => by
    have h : ts = [] := h
    subst h; rfl
  | r :: rs, a, ts, ⟨h1, h2, ts', h3, h4⟩ => by
    rw [List.map_cons, List.sum_cons, cover_sum rs _ _ h4, h3, h1]
    simp

/-! ### windows -/

/-- one window and the committed checkpoints it holds -/
structure WinOk (cf : List Cfg) (w : Window) (comm : List (Nat × List (Nat → UInt8))) : Prop where
  len : w.chk.length = comm.length
  pos : comm ≠ []
  last : w.last + 1 = w.first + comm.length
  ord : ordered w.chk = true
  bounds : ∀ s ∈ w.chk, w.tick0 ≤ s.tick ∧ s.tick ≤ w.tick1
  holds : ∀ p c, comm[p]? = some c → ∃ s d, w.chk[p]? = some s ∧ s.tick = c.1 ∧ Holds cf (winMap w.chk) p c.2 d

def WinsOk (cf : List Cfg) : List Window → Nat → List (Nat × List (Nat → UInt8)) → Prop
  | [], _, comm => comm = []
  | w :: ws, a, comm => w.first = a ∧ ∃ c1 c2, comm = c1 ++ c2 ∧ WinOk cf w c1 ∧ WinsOk cf ws (a + c1.length) c2

theorem winsOk_snoc {cf : List Cfg} {w : Window} {c' : List (Nat × List (Nat → UInt8))} : ∀ (ws : List Window) (a : Nat)
    (comm : List (Nat × List (Nat → UInt8))), WinsOk cf ws a comm → w.first = a + comm.length → WinOk cf w c' →
    WinsOk cf (ws ++ [w]) a (comm ++ c')
  | [], a, comm, h, h1, h2 => by
    have h : comm = [] := h
    subst h
    exact ⟨h1, c', [], by simp, h2, rfl⟩
  | v :: ws, a, comm, ⟨h0, c1, c2, h3, h4, h5⟩, h1, h2 => by
    refine ⟨h0, c1, c2 ++ c', by rw [h3, List.append_assoc], h4, winsOk_snoc ws _ _ h5 ?_ h2⟩
    rw [h1, h3, List.length_append]
    omega

theorem winsOk_sum {cf : List Cfg} : ∀ (ws : List Window) (a : Nat) (comm : List (Nat × List (Nat → UInt8))), WinsOk cf ws a comm →
    (ws.map fun w => w.last - w.first + 1).sum = comm.length
  | [], _, comm, h => by
    have h : comm = [] := h
    subst h; rfl
  | w :: ws, a, comm, ⟨h0, c1, c2, h3, h4, h5⟩ => by
    rw [List.map_cons, List.sum_cons, winsOk_sum ws _ _ h5, h3, List.length_append]
    have := h4.last
    have hp : 0 < c1.length := List.length_pos_iff.2 h4.pos
    omega

/-- what is found in a window is the right checkpoint -/
theorem winsOk_found {cf : List Cfg} {x t p : Nat} {w : Window} : ∀ (ws : List Window) (a : Nat) (comm : List (Nat × List (Nat → UInt8))),
    WinsOk cf ws a comm → w ∈ ws → inWindow x t w = some p →
    ∃ c d, a ≤ x ∧ comm[x - a]? = some c ∧ c.1 = t ∧ Holds cf (winMap w.chk) p c.2 d
  | [], _, _, _, hw, _ => by cases hw
  | v :: ws, a, comm, ⟨h0, c1, c2, h3, h4, h5⟩, hw, hi => by
    rcases List.mem_cons.1 hw with hw | hw
    · subst hw
      unfold inWindow at hi
      by_cases c : w.first ≤ x
      · rw [if_pos c] at hi
        rcases Option.eq_none_or_eq_some w.chk[x - w.first]? with hn | ⟨s, hs⟩
        · rw [hn] at hi; cases hi
        · rw [hs] at hi
          dsimp only at hi
          by_cases e : s.tick = t
          · rw [if_pos e] at hi
            cases hi
            have hlt : x - w.first < c1.length := by
              rw [← h4.len]; exact (List.getElem?_eq_some_iff.1 hs).1
            obtain ⟨s', d, g1, g2, g3⟩ := h4.holds (x - w.first) _ (List.getElem?_eq_getElem hlt)
            rw [hs] at g1
            cases g1
            refine ⟨_, d, by omega, ?_, g2 ▸ e, g3⟩
            rw [h3, ← h0, List.getElem?_append_left hlt]
            exact List.getElem?_eq_getElem hlt
          · rw [if_neg e] at hi; cases hi
      · rw [if_neg c] at hi; cases hi
    · obtain ⟨c, d, g1, g2, g3, g4⟩ := winsOk_found ws _ _ h5 hw hi
      refine ⟨c, d, by omega, ?_, g3, g4⟩
      rw [h3, List.getElem?_append_right (by omega), ← g2]
      congr 1
      omega

def matching (x t : Nat) (w : Window) : Bool := decide (w.first ≤ x ∧ x ≤ w.last ∧ w.tick0 ≤ t ∧ t ≤ w.tick1)

theorem winsOk_none {cf : List Cfg} {x t : Nat} : ∀ (ws : List Window) (a : Nat) (comm : List (Nat × List (Nat → UInt8))),
    WinsOk cf ws a comm → x < a → ws.filter (matching x t) = []
  | [], _, _, _, _ => rfl
  | w :: ws, a, comm, ⟨h0, c1, c2, h3, h4, h5⟩, hx => by
    rw [List.filter_cons_of_neg (by unfold matching; simp; omega)]
    exact winsOk_none ws _ _ h5 (by omega)

theorem winsOk_disk {cf : List Cfg} {x : Nat} {c : Nat × List (Nat → UInt8)} : ∀ (ws : List Window) (a : Nat) (comm : List (Nat × List (Nat → UInt8))),
    WinsOk cf ws a comm → a ≤ x → comm[x - a]? = some c →
    ∃ w p, w ∈ ws ∧ ws.filter (matching x c.1) = [w] ∧ inWindow x c.1 w = some p ∧ ordered w.chk = true
  | [], _, comm, h, _, hc => by
    have h : comm = [] := h
    subst h; simp at hc
  | w :: ws, a, comm, ⟨h0, c1, c2, h3, h4, h5⟩, hx, hc => by
    by_cases hlt : x - a < c1.length
    · rw [h3, List.getElem?_append_left hlt] at hc
      obtain ⟨s, d, g1, g2, g3⟩ := h4.holds (x - a) c hc
      have hb := h4.bounds s (List.mem_of_getElem? g1)
      have hl := h4.last
      refine ⟨w, x - a, List.mem_cons_self .., ?_, ?_, h4.ord⟩
      · rw [List.filter_cons_of_pos (by unfold matching; rw [decide_eq_true_eq, ← g2]; exact ⟨by omega, by omega, hb.1, hb.2⟩),
          winsOk_none ws _ _ h5 (by omega)]
      · unfold inWindow
        rw [if_pos (by omega), h0, g1]
        dsimp only
        rw [if_pos g2]
    · rw [h3, List.getElem?_append_right (by omega)] at hc
      obtain ⟨v, p, g1, g2, g3, g4⟩ := winsOk_disk (x := x) (c := c) ws (a + c1.length) c2 h5 (by omega) (by rw [← hc]; congr 1; omega)
      refine ⟨v, p, List.mem_cons_of_mem _ g1, ?_, g3, g4⟩
      rw [List.filter_cons_of_neg (by unfold matching; have := h4.last; simp; omega)]
      exact g2

/-! ### the tables as a whole -/

structure DBOk (cf : List Cfg) (k : Cherry) (comm : List (Nat × List (Nat → UInt8))) : Prop where
  wins : WinsOk cf k.wins 0 comm
  arch : k.arch = comm.length
  runs : Cover (k.dbRuns ++ k.runs) 0 (comm.map (·.1))
  some : k.runs = [] → comm = []

theorem foldl_min : ∀ (l : List Saved) (m : Nat), l.foldl (fun m c => min m c.tick) m ≤ m ∧
    ∀ s ∈ l, l.foldl (fun m c => min m c.tick) m ≤ s.tick
  | [], m => ⟨Nat.le_refl _, fun s h => by cases h⟩
  | a :: l, m => by
    obtain ⟨h1, h2⟩ := foldl_min l (min m a.tick)
    rw [List.foldl_cons]
    refine ⟨by omega, ?_⟩
    intro s hs
    rcases List.mem_cons.1 hs with e | hs
    · subst e; omega
    · exact h2 s hs

theorem foldl_max : ∀ (l : List Saved) (m : Nat), m ≤ l.foldl (fun m c => max m c.tick) m ∧
    ∀ s ∈ l, s.tick ≤ l.foldl (fun m c => max m c.tick) m
  | [], m => ⟨Nat.le_refl _, fun s h => by cases h⟩
  | a :: l, m => by
    obtain ⟨h1, h2⟩ := foldl_max l (max m a.tick)
    rw [List.foldl_cons]
    refine ⟨by omega, ?_⟩
    intro s hs
    rcases List.mem_cons.1 hs with e | hs
    · subst e; omega
    · exact h2 s hs

theorem ordered_of : ∀ (l : List Saved), (∀ p a b, l[p]? = some a → l[p + 1]? = some b → a.tick ≤ b.tick) → ordered l = true
  | [], _ => rfl
  | [_], _ => rfl
  | a :: b :: l, h => by
    unfold ordered
    rw [Bool.and_eq_true, decide_eq_true_eq]
    exact ⟨h 0 a b rfl rfl, ordered_of (b :: l) (fun p x y hx hy => h (p + 1) x y hx hy)⟩

/-- what a list of checkpoints to be saved stands for -/
structure Batch (cf : List Cfg) (l : List Saved) (comm : List (Nat × List (Nat → UInt8))) : Prop where
  len : l.length = comm.length
  first : ∀ s, l.head? = some s → s.snap = true
  ord : ordered l = true
  holds : ∀ p c, comm[p]? = some c → ∃ s d, l[p]? = some s ∧ s.tick = c.1 ∧ Holds cf (winMap l) p c.2 d

theorem save_ok {cf : List Cfg} {k : Cherry} {comm c' : List (Nat × List (Nat → UInt8))} {l : List Saved} (h : DBOk cf k comm)
    (b : Batch cf l c') (hne : l ≠ []) : ∃ k', k.save l = some k' ∧ k'.cp = k.cp ∧ DBOk cf k' (comm ++ c') := by
  cases l with
  | nil => exact absurd rfl hne
  | cons s l =>
    unfold Cherry.save
    dsimp only
    rw [b.first s rfl]
    simp only [Bool.true_eq_false, if_false]
    refine ⟨_, rfl, rfl, ?_⟩
    have hlen := b.len
    have hc : c' ≠ [] := by intro e; rw [e] at hlen; simp at hlen
    have hticks : (s :: l).map (·.tick) = c'.map (·.1) := by
      apply List.ext_getElem?
      intro p
      rw [List.getElem?_map, List.getElem?_map]
      rcases Option.eq_none_or_eq_some c'[p]? with hn | ⟨c, hc⟩
      · have : (s :: l)[p]? = none := by
          rw [List.getElem?_eq_none_iff] at hn ⊢
          omega
        rw [hn, this]; rfl
      · obtain ⟨s', d, g1, g2, _⟩ := b.holds p c hc
        rw [hc, g1, Option.map_some, Option.map_some, g2]
    refine ⟨?_, ?_, ?_, ?_⟩
    · refine winsOk_snoc k.wins 0 comm h.wins (by dsimp only; rw [h.arch]; omega) ⟨b.len, hc, ?_, b.ord, ?_, b.holds⟩
      · dsimp only
        rw [← hlen]
        simp only [List.length_cons]
        omega
      · intro x hx
        exact ⟨(foldl_min _ _).2 x hx, (foldl_max _ _).2 x hx⟩
    · dsimp only
      rw [h.arch, List.length_append, hlen]
    · dsimp only
      rw [List.append_assoc, List.take_append_drop, List.map_append, hticks, h.arch]
      have key : k.dbRuns ++ addRuns k.runs comm.length (c'.map (·.1)) = addRuns (k.dbRuns ++ k.runs) comm.length (c'.map (·.1)) := by
        by_cases e : k.runs = []
        · have e2 := h.some e
          have h3 := h.runs
          rw [e2, e, List.append_nil] at h3
          have : k.dbRuns = [] := by
            cases hd : k.dbRuns with
            | nil => rfl
            | cons r rs =>
              rw [hd] at h3
              obtain ⟨_, _, ts', g, _⟩ := h3
              simp at g
          rw [this]; rfl
        · rw [addRuns_append _ _ _ _ e]
      rw [key]
      have := cover_addRuns (c'.map (·.1)) _ _ h.runs
      rw [List.length_map] at this
      exact this
    · intro e
      exfalso
      dsimp only at e
      have hne : addRuns k.runs k.arch ((s :: l).map (·.tick)) ≠ [] := by
        rw [List.map_cons]
        exact addRuns_ne (l.map (·.tick)) _ _ (addRun_ne _ _ _)
      rw [List.drop_eq_nil_iff] at e
      have := List.length_pos_iff.2 hne
      omega

end Sparta.Cherry
