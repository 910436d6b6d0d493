import Verif.Notify.Answers
/-!
C131-C137: notifications and log messages.
-/
namespace Sparta.Notify
open Sparta.Strings (Str)
open Sparta.PTree (Glob OkName patMatches)

/-- what history `ops` answers -/
abbrev results (ops : List Op) : List Res := (runOps step init ops).2

private theorem legal_more {ops more : List Op} (h : Legal ops) (h1 : ∀ o ∈ more, o.Plain ∧ o.isPrivate = false ∧ o.reachesAll = true) :
    Legal (ops ++ more) := by
  refine ⟨fun o ho => ?_, ?_⟩
  · rcases List.mem_append.1 ho with x | x
    · exact h.1 o x
    · exact (h1 o x).1
  · rcases h.2 with h2 | h2
    · refine .inl fun o ho => ?_
      rcases List.mem_append.1 ho with x | x
      · exact h2 o x
      · exact (h1 o x).2.1
    · refine .inr fun o ho => ?_
      rcases List.mem_append.1 ho with x | x
      · exact h2 o x
      · exact (h1 o x).2.2

private theorem pending_frames {ops : List Op} (h : Legal ops) : (world ops).pending = [] ↔ (stateOf ops).frames = [] := by
  obtain ⟨b, hi⟩ := inv_legal h
  rw [← hi.pend, List.map_eq_nil_iff]

private theorem runOps_cons_snd (s : State) (o : Op) (os : List Op) :
    (runOps step s (o :: os)).2 = (step s o).2 :: (runOps step (step s o).1 os).2 := rfl

/-! ### C131 -/

/-- C131: a post calls exactly the observers that cover the source, each once, whatever other posts are being delivered.
Partial: see the violations below for what `Legal` excludes. -/
theorem C131_post_calls_partial {ops : List Op} (h : Legal ops) {i ty : Nat} {nm : Str} (hi : (world ops).srcs i = some (ty, nm)) (x : Nat) :
    ∃ l, (world ops).Observers i l ∧
      results (ops ++ .post i x :: List.replicate (l.length + 1) .deliver) =
        results ops ++ .ok :: l.map (callOf ⟨ty, if ty = 0 then (world ops).msgs else 0, i, x⟩) ++
          [.returned ⟨ty, if ty = 0 then (world ops).msgs else 0, i, x⟩] := by
  obtain ⟨b, hv⟩ := inv_legal h
  obtain ⟨l, h1, h2, h3, -⟩ := post_run hv.t hv.seq hi x
  refine ⟨l, h1, ?_⟩
  rw [results, runOps_append_snd, runOps_cons_snd, h2]
  rw [(deliver_all l _ _ _ h3).1]
  simp

example : Legal [.node, .source 1 0 "a".toList, .register 1 5 0 "a*".toList true false] ∧
    (world [.node, .source 1 0 "a".toList, .register 1 5 0 "a*".toList true false]).srcs 2 = some (0, "a".toList) ∧
    results ([.node, .source 1 0 "a".toList, .register 1 5 0 "a*".toList true false] ++ [.post 2 7, .deliver, .deliver]) =
      [.made 1, .made 2, .events [.sole 2 1, .added 2 1], .ok, .called 5 1 ⟨0, 0, 2, 7⟩, .returned ⟨0, 0, 2, 7⟩] := by decide +kernel

/-- C131: an observer may post: the calls of the first post go on where they were -/
theorem C131_nested_partial {ops : List Op} (h : Legal ops) {i ty : Nat} {nm : Str} (hi : (world ops).srcs i = some (ty, nm)) (x a : Nat)
    {j ty' : Nat} {nm' : Str} (y : Nat) :
    ∃ l, (world ops).Observers i l ∧ (a ≤ l.length →
      ∀ mid, mid = ops ++ .post i x :: List.replicate a .deliver → (world mid).srcs j = some (ty', nm') →
      ∃ l', (world mid).Observers j l' ∧
        results (mid ++ (.post j y :: List.replicate (l'.length + 1) .deliver) ++ List.replicate (l.length - a + 1) .deliver) =
          results ops ++ .ok :: (l.take a).map (callOf ⟨ty, if ty = 0 then (world ops).msgs else 0, i, x⟩) ++
            (.ok :: l'.map (callOf ⟨ty', if ty' = 0 then (world mid).msgs else 0, j, y⟩) ++
              [.returned ⟨ty', if ty' = 0 then (world mid).msgs else 0, j, y⟩]) ++
            (l.drop a).map (callOf ⟨ty, if ty = 0 then (world ops).msgs else 0, i, x⟩) ++
              [.returned ⟨ty, if ty = 0 then (world ops).msgs else 0, i, x⟩]) := by
  obtain ⟨b, hv⟩ := inv_legal h
  obtain ⟨l, h1, h2, h3, -⟩ := post_run hv.t hv.seq hi x
  refine ⟨l, h1, fun ha mid hm hj => ?_⟩
  have hlm : Legal mid := by
    rw [hm]
    refine legal_more h (fun o ho => ?_)
    rcases List.mem_cons.1 ho with rfl | ho
    · exact ⟨trivial, rfl, rfl⟩
    · rw [(List.mem_replicate.1 ho).2]
      exact ⟨trivial, rfl, rfl⟩
  obtain ⟨b', hv'⟩ := inv_legal hlm
  obtain ⟨l', g1, g2, g3, -⟩ := post_run hv'.t hv'.seq hj y
  refine ⟨l', g1, ?_⟩
  have hlen : (l.take a).length = a := by rw [List.length_take]; omega
  obtain ⟨k1, k2⟩ := deliver_run (l.take a) _ _ (l.drop a) _ (by rw [List.take_append_drop]; exact h3)
  rw [hlen] at k1 k2
  have hmid : results mid = results ops ++ .ok :: (l.take a).map (callOf ⟨ty, if ty = 0 then (world ops).msgs else 0, i, x⟩) := by
    rw [hm, results, runOps_append_snd, runOps_cons_snd, h2, k1]
  have hfr : (stateOf mid).frames = ⟨⟨ty, if ty = 0 then (world ops).msgs else 0, i, x⟩, l.drop a⟩ :: (stateOf ops).frames := by
    rw [hm]
    show (runOps step init (ops ++ _)).1.frames = _
    rw [runOps_append]
    exact k2
  change (step (stateOf mid) (.post j y)).1.frames = _ at g3
  obtain ⟨q1, q2⟩ := deliver_all l' _ _ _ g3
  rw [hfr] at q2
  obtain ⟨r1, -⟩ := deliver_all (l.drop a) _ _ _ q2
  rw [List.length_drop] at r1
  rw [results, runOps_append_snd, runOps_append_snd, runOps_append]
  show results mid ++ _ ++ _ = _
  rw [hmid, runOps_cons_snd, g2]
  rw [show (runOps step (step (runOps step init mid).1 (.post j y)).1 (List.replicate (l'.length + 1) .deliver)).2 = _ from q1]
  rw [show (runOps step (runOps step init mid).1 (.post j y :: List.replicate (l'.length + 1) .deliver)).1 =
    (runOps step (step (stateOf mid) (.post j y)).1 (List.replicate (l'.length + 1) .deliver)).1 from rfl, r1]
  simp

example : Legal [.node, .source 1 0 "a".toList, .register 1 5 0 [] true false, .register 1 6 0 [] true false] ∧
    results ([.node, .source 1 0 "a".toList, .register 1 5 0 [] true false, .register 1 6 0 [] true false] ++
      [.post 2 7, .deliver, .post 2 8, .deliver, .deliver, .deliver, .deliver, .deliver]) =
      [.made 1, .made 2, .events [.sole 2 1, .added 2 1], .events [.added 2 2], .ok, .called 5 1 ⟨0, 0, 2, 7⟩,
       .ok, .called 5 1 ⟨0, 1, 2, 8⟩, .called 6 1 ⟨0, 1, 2, 8⟩, .returned ⟨0, 1, 2, 8⟩,
       .called 6 1 ⟨0, 0, 2, 7⟩, .returned ⟨0, 0, 2, 7⟩] := by decide +kernel

/-- C131 fails for lists of names: an observer of "a,b" is called for a source "a" that exists when it registers, but not for
one that is made later -/
theorem C131_list_violated :
    results [.node, .source 1 0 "a".toList, .register 1 5 0 "a,b".toList false false, .post 2 7, .deliver] =
      [.made 1, .made 2, .events [.sole 2 1, .added 2 1], .ok, .called 5 1 ⟨0, 0, 2, 7⟩] ∧
    results [.node, .register 1 5 0 "a,b".toList false false, .source 1 0 "a".toList, .post 2 7, .deliver] =
      [.made 1, .events [], .made 2, .ok, .returned ⟨0, 0, 2, 7⟩] := by decide +kernel

/-- C131 fails for sources below the virtual global node: an observer of all trees is called twice for one that is made later,
and not at all for one that exists -/
theorem C131_global_child_violated :
    results [.register 0 5 0 [] false false, .source 0 0 "a".toList, .post 1 7, .deliver, .deliver, .deliver] =
      [.events [], .made 1, .ok, .called 5 0 ⟨0, 0, 1, 7⟩, .called 5 0 ⟨0, 0, 1, 7⟩, .returned ⟨0, 0, 1, 7⟩] ∧
    results [.source 0 0 "a".toList, .register 0 5 0 [] false false, .post 1 7, .deliver] =
      [.made 1, .events [], .ok, .returned ⟨0, 0, 1, 7⟩] := by decide +kernel

/-- C131 fails with private subtrees: an observer that asked for public nodes only is called for a source of a private subtree that
is attached later (a source that is there when it registers does not call it), and an observer that
deregistered is still called if the subtree became private in between -/
theorem C131_private_violated :
    results [.node, .register 1 5 0 [] false false, .node, .source 2 0 "a".toList, .makePrivate 2, .addChild 1 2, .post 3 7, .deliver] =
      [.made 1, .events [], .made 2, .made 3, .ok, .ok, .ok, .called 5 1 ⟨0, 0, 3, 7⟩] ∧
    results [.node, .node, .source 2 0 "a".toList, .makePrivate 2, .addChild 1 2, .register 1 5 0 [] false false, .post 3 7, .deliver] =
      [.made 1, .made 2, .made 3, .ok, .ok, .events [], .ok, .returned ⟨0, 0, 3, 7⟩] ∧
    results [.node, .source 1 0 "a".toList, .register 1 5 0 [] false false, .makePrivate 2, .deregister 1 5 0 [] false, .post 2 7, .deliver] =
      [.made 1, .made 2, .events [.sole 2 1, .added 2 1], .ok, .events [], .ok, .called 5 1 ⟨0, 0, 2, 7⟩] := by decide +kernel

/-! ### C132 -/

/-- C132: what a source answers about its observers and posts.  Partial: `Legal`. -/
theorem C132_observed_partial {ops : List Op} (h : Legal ops) {i ty : Nat} {nm : Str} (hi : (world ops).srcs i = some (ty, nm)) :
    ∃ l nodes, (world ops).Observers i l ∧ nodes.Nodup ∧ (∀ n, n ∈ nodes ↔ ∃ d ∈ l, d.pt = n) ∧
      results (ops ++ [.observed i]) = results ops ++ [.info (!l.isEmpty) l.length nodes ((world ops).posts i)] := by
  obtain ⟨b, hv⟩ := inv_legal h
  obtain ⟨x, h1, h2, h3, h4, h5, h6, h7, h8⟩ := get_of_srcs hv.t hi
  refine ⟨x.dels, x.nodes, h5, h6, h7, ?_⟩
  rw [results, res_snoc]
  congr 2
  show (match (State.get (stateOf ops) i).bind Tree.src with | none => _ | some x => _ : State × Res).2 = _
  change (State.get (stateOf ops) i).bind Tree.src = some x at h1
  simp only [step, h1]
  rw [h8, h4]

example : Legal [.node, .node, .source 2 0 "a".toList, .register 2 5 0 [] true false, .addChild 1 2, .register 1 5 0 "a".toList true false,
      .register 2 6 0 [] true true, .post 3 1, .deliver] ∧
    results ([.node, .node, .source 2 0 "a".toList, .register 2 5 0 [] true false, .addChild 1 2, .register 1 5 0 "a".toList true false,
      .register 2 6 0 [] true true, .post 3 1, .deliver] ++ [.observed 3]) =
    results [.node, .node, .source 2 0 "a".toList, .register 2 5 0 [] true false, .addChild 1 2, .register 1 5 0 "a".toList true false,
      .register 2 6 0 [] true true, .post 3 1, .deliver] ++ [.info true 3 [2, 1] 1] := by decide +kernel

/-! ### C133 -/

/-- C133: a registration is refused exactly if it is in force already, or cannot be of use and the user asked to check that; then
nothing has changed -/
theorem C133_register_partial {ops : List Op} (h : Legal ops) {n k ty : Nat} {name : Str} {ensure all : Bool}
    (hl : Legal (ops ++ [.register n k ty name ensure all])) (hp : (world ops).pending = []) (hn : Made ops n)
    (he : ensure = false ∨ ∀ o ∈ ops, o.isPrivate = false) :
    ((step (stateOf ops) (.register n k ty name ensure all)).2 = .error ↔
      ⟨.user k, ty, n, name⟩ ∈ (world ops).regs ∨
      (ensure = true ∧ (n = 0 ∨ ¬ ∃ i, (world ops).Covers ⟨.user k, ty, n, name⟩ i))) ∧
    ((step (stateOf ops) (.register n k ty name ensure all)).2 = .error →
      (step (stateOf ops) (.register n k ty name ensure all)).1 = stateOf ops) ∧
    (step (stateOf ops) (.register n k ty name ensure all)).2 ≠ .undefined := by
  have hs : Single name := (legal_snoc hl).2
  have hf := (pending_frames h).1 hp
  have hlt := (made_iff h n).1 hn
  obtain ⟨b, hv, hb⟩ : ∃ b, Inv b (stateOf ops) (world ops) ∧ (b = true ∨ all = true) ∧ (ensure = false ∨ b = true) := by
    by_cases hpr : ∀ o ∈ ops, o.isPrivate = false
    · exact ⟨true, inv_quiet h.1 hpr, .inl rfl, .inr rfl⟩
    · obtain ⟨b, hv⟩ := inv_legal h
      refine ⟨b, hv, .inr ?_, ?_⟩
      · rcases hl.2 with h2 | h2
        · exact absurd (fun o ho => h2 o (by simp [ho])) hpr
        · exact h2 (.register n k ty name ensure all) (by simp)
      · exact .inl (he.resolve_right hpr)
  have hr := register_inv hv.t (cb := .user k) (ty := ty) (ensure := ensure) (all := all) hs
    (hb.1.elim (fun x => .inr (hv.pub x)) .inl) hlt
  have hstep : step (stateOf ops) (.register n k ty name ensure all) = register (stateOf ops) n (.user k) ty name ensure all := by
    rw [step, if_pos hf]
  rw [hstep]
  have hposs : (ensure && !(stateOf ops).possible n ty name) = true ↔
      ensure = true ∧ (n = 0 ∨ ¬ ∃ i, (world ops).Covers ⟨.user k, ty, n, name⟩ i) := by
    rw [Bool.and_eq_true]
    refine and_congr_right fun h1 => ?_
    have hbt : b = true := hb.2.resolve_left (by rw [h1]; nofun)
    rw [Bool.not_eq_true', ← Bool.not_eq_true, possible_pub hv.t (hv.pub hbt) hlt]
    have hcov : (∃ i, (world ops).Covers ⟨.user k, ty, n, name⟩ i) ↔ n = 0 ∧ (∃ i, (world ops).Covers ⟨.user k, ty, n, name⟩ i) ∨
        ∃ e ∈ entsL [] (stateOf ops).roots, n ∈ e.ids ∧ canGen e.src ty name = true := by
      constructor
      · rintro ⟨i, hc⟩
        by_cases hz : n = 0
        · exact .inl ⟨hz, i, hc⟩
        · obtain ⟨nm, h2, h3, h4⟩ := hc
          obtain ⟨e, he, rfl⟩ := ent_of_src hv.t h2
          have hok := hv.t.ents e he
          have h5 := hok.srcs
          rw [h2] at h5
          have h3 : n = 0 ∨ Above (world ops).par n e.id := h3
          rw [chain_above hok.chain (by simp [Ent.ids, Ent.chain])] at h3
          cases hx : e.src with
          | none => rw [hx] at h5; cases h5
          | some x =>
            rw [hx] at h5
            have h5 := Option.some.inj h5
            refine .inr ⟨e, he, h3.resolve_left hz, ?_⟩
            rw [hx, canGen, Bool.and_eq_true, beq_iff_eq, catMatch_fits hs.1]
            exact ⟨(congrArg Prod.fst h5).symm, (show nm = x.name from congrArg Prod.snd h5) ▸ h4⟩
      · rintro (⟨-, x⟩ | ⟨e, he, h2, h3⟩)
        · exact x
        · have hok := hv.t.ents e he
          have h5 := hok.srcs
          cases hx : e.src with
          | none => rw [hx] at h3; cases h3
          | some x =>
            rw [hx] at h5 h3
            rw [canGen, Bool.and_eq_true, beq_iff_eq] at h3
            exact ⟨e.id, (covers_iff h5 (d := ⟨.user k, ty, n, name⟩) hs (chain_above hok.chain (by simp [Ent.ids, Ent.chain]))).2
              ⟨h3.1.symm, .inr h2, h3.2⟩⟩
    constructor
    · intro h2
      by_cases hz : n = 0
      · exact .inl hz
      · refine .inr fun hc => h2 ⟨hz, ?_⟩
        rcases hcov.1 hc with ⟨hz', -⟩ | x
        · exact absurd hz' hz
        · exact x
    · rintro (hz | hc) ⟨hz', x⟩
      · exact hz' hz
      · exact hc (hcov.2 (.inr x))
  split at hr
  · rename_i hc
    rw [hr]
    refine ⟨⟨fun _ => ?_, fun _ => rfl⟩, fun _ => rfl, nofun⟩
    rcases hc with x | x
    · exact .inr (hposs.1 x)
    · exact .inl x
  · rename_i hc
    obtain ⟨r, g, e1, -⟩ := hr
    rw [e1]
    refine ⟨⟨nofun, ?_⟩, nofun, nofun⟩
    rintro (x | x)
    · exact absurd (.inr x) hc
    · exact absurd (.inl (hposs.2 x)) hc

example : Legal ([.node, .source 1 0 "a".toList] ++ [.register 1 5 0 "b".toList true false]) ∧
    results ([.node, .source 1 0 "a".toList] ++ [.register 1 5 0 "b".toList true false]) = [.made 1, .made 2, .error] ∧
    results ([.node, .source 1 0 "a".toList] ++ [.register 1 5 0 "b".toList false false, .register 1 5 0 "b".toList false false]) =
      [.made 1, .made 2, .events [], .error] := by decide +kernel

example : Made [.node, .source 1 0 "a".toList] 2 := .inr ⟨.source 1 0 "a".toList, by decide +kernel, .inr ⟨1, 0, _, rfl⟩⟩

/-- C133: a deregistration is refused exactly if the registration is not in force; then nothing has changed -/
theorem C133_deregister_partial {ops : List Op} (h : Legal ops) {n k ty : Nat} {name : Str} {all : Bool}
    (hl : Legal (ops ++ [.deregister n k ty name all])) (hp : (world ops).pending = []) (hn : Made ops n) :
    ((step (stateOf ops) (.deregister n k ty name all)).2 = .error ↔ ⟨.user k, ty, n, name⟩ ∉ (world ops).regs) ∧
    ((step (stateOf ops) (.deregister n k ty name all)).2 = .error →
      (step (stateOf ops) (.deregister n k ty name all)).1 = stateOf ops) ∧
    (step (stateOf ops) (.deregister n k ty name all)).2 ≠ .undefined := by
  have hs : Single name := (legal_snoc hl).2
  have hf := (pending_frames h).1 hp
  have hlt := (made_iff h n).1 hn
  obtain ⟨b, hv, hb⟩ : ∃ b, Inv b (stateOf ops) (world ops) ∧ (b = true ∨ all = true) := by
    by_cases hpr : ∀ o ∈ ops, o.isPrivate = false
    · exact ⟨true, inv_quiet h.1 hpr, .inl rfl⟩
    · obtain ⟨b, hv⟩ := inv_legal h
      refine ⟨b, hv, .inr ?_⟩
      rcases hl.2 with h2 | h2
      · exact absurd (fun o ho => h2 o (by simp [ho])) hpr
      · exact h2 (.deregister n k ty name all) (by simp)
  have hr := deregister_inv hv.t (cb := .user k) (ty := ty) (all := all) hs (hb.elim (fun x => .inr (hv.pub x)) .inl) hlt
  have hstep : step (stateOf ops) (.deregister n k ty name all) = deregister (stateOf ops) n (.user k) ty name all := by
    rw [step, if_pos hf]
  rw [hstep]
  split at hr
  · rename_i hc
    obtain ⟨r, g, e1, -⟩ := hr
    rw [e1]
    exact ⟨⟨nofun, fun x => absurd hc x⟩, nofun, nofun⟩
  · rename_i hc
    rw [hr]
    exact ⟨⟨fun _ => hc, fun _ => rfl⟩, fun _ => rfl, nofun⟩

example : Legal ([.node, .source 1 0 "a".toList, .register 1 5 0 [] true false] ++ [.deregister 1 5 0 [] false]) ∧
    (world [.node, .source 1 0 "a".toList, .register 1 5 0 [] true false]).pending = [] ∧
    results [.node, .source 1 0 "a".toList, .register 1 5 0 [] true false, .deregister 1 5 0 [] false, .deregister 1 5 0 [] false] =
      [.made 1, .made 2, .events [.sole 2 1, .added 2 1], .events [.removed 2 0, .none 2 0], .error] := by decide +kernel

/-- C133: attaching a tap to a node, moving it or taking it off never fails -/
theorem C133_tap_partial {ops : List Op} (h : Legal ops) {k : Nat} {n : Option Nat} (hp : (world ops).pending = [])
    (hk : k < (world ops).taps.length) (hn : ∀ m, n = some m → Made ops m) :
    (step (stateOf ops) (.tapReset k n)).2 ≠ .error ∧ (step (stateOf ops) (.tapReset k n)).2 ≠ .undefined := by
  obtain ⟨b, hv⟩ := inv_legal h
  rw [step, if_pos ((pending_frames h).1 hp)]
  obtain ⟨-, h1, h2, -⟩ := tapReset_inv hv k n
  refine ⟨h1, fun x => ?_⟩
  rcases h2 x with y | ⟨m, e, y⟩
  · omega
  · exact absurd ((made_iff h m).1 (hn m e)) (Nat.not_lt.2 y)

example : Legal [.node, .source 1 0 "a".toList, .tap [] 0, .tapReset 0 (some 1)] ∧
    0 < (world [.node, .source 1 0 "a".toList, .tap [] 0, .tapReset 0 (some 1)]).taps.length ∧
    results [.node, .source 1 0 "a".toList, .tap [] 0, .tapReset 0 (some 1), .tapReset 0 (some 2), .tapReset 0 none, .observed 2] =
      [.made 1, .made 2, .made 0, .events [.sole 2 1, .added 2 1], .events [.sole 2 1, .added 2 1],
       .events [.removed 2 0, .none 2 0], .info false 0 [] 0] := by decide +kernel

/-- C133 fails for a malformed list of names: the call fails, but the observer is registered: a second call is refused as a
duplicate, and it cannot be deregistered either -/
theorem C133_malformed_violated :
    results [.node, .register 1 5 0 "a b".toList false false, .deregister 1 5 0 "a b".toList false] = [.made 1, .error, .error] ∧
    (stateOf [.node, .register 1 5 0 "a b".toList false false]).obsAt 1 = some [⟨.user 5, 0, 1, "a b".toList⟩] ∧
    (stateOf [.node]).obsAt 1 = some [] := by decide +kernel

/-- C133 fails for a list of names if the user asks for the check: it is refused though each name has its source -/
theorem C133_list_check_violated :
    results [.node, .source 1 0 "a".toList, .source 1 0 "b".toList, .register 1 5 0 "a,b".toList true false,
      .register 1 5 0 "a,b".toList false false] =
      [.made 1, .made 2, .made 3, .error, .events [.sole 2 1, .added 2 1, .sole 3 1, .added 3 1]] := by decide +kernel

/-! ### C134 -/

/-- C134: a registration makes exactly the covered sources call back, each with the number of its observers -/
theorem C134_register_events_partial {ops : List Op} {n k ty : Nat} {name : Str} {ensure all : Bool}
    (hl : Legal (ops ++ [.register n k ty name ensure all])) {evs : List Ev}
    (hr : (step (stateOf ops) (.register n k ty name ensure all)).2 = .events evs) :
    ∃ l : List (Nat × Nat), (l.map (·.1)).Nodup ∧ (∀ i, (∃ c, (i, c) ∈ l) ↔ (world ops).Covers ⟨.user k, ty, n, name⟩ i) ∧
      (∀ x ∈ l, ∃ o, (world ops).Observers x.1 o ∧ o.length = x.2) ∧ evs = l.flatMap (fun x => gainEvents x.1 x.2) := by
  obtain ⟨h, hs⟩ := legal_snoc hl
  have hs : Single name := hs
  obtain ⟨b, hv, hb⟩ : ∃ b, Inv b (stateOf ops) (world ops) ∧ (b = true ∨ all = true) := by
    by_cases hpr : ∀ o ∈ ops, o.isPrivate = false
    · exact ⟨true, inv_quiet h.1 hpr, .inl rfl⟩
    · obtain ⟨b, hv⟩ := inv_legal h
      refine ⟨b, hv, .inr ?_⟩
      rcases hl.2 with h2 | h2
      · exact absurd (fun o ho => h2 o (by simp [ho])) hpr
      · exact h2 (.register n k ty name ensure all) (by simp)
  rw [step] at hr
  split at hr
  · by_cases hlt : n < (stateOf ops).next
    · have hreg := register_inv hv.t (cb := .user k) (ty := ty) (ensure := ensure) (all := all) hs
        (hb.elim (fun x => .inr (hv.pub x)) .inl) hlt
      split at hreg
      · rw [hreg] at hr; cases hr
      · obtain ⟨r, g, e1, -⟩ := hreg
        rw [e1] at hr
        obtain ⟨l, h1, h2, h3, h4⟩ := events_of hv.t (d := ⟨.user k, ty, n, name⟩) hs (f := gainEvents) (add_events hv.t)
        exact ⟨l, h1, h2, h3, (Res.events.inj hr).symm.trans h4⟩
    · rw [register, (obsAt_none hv.t n).2 hlt] at hr; cases hr
  · cases hr

example : Legal ([.node, .source 1 0 "a".toList, .source 1 0 "b".toList, .register 2 5 0 [] true false] ++ [.register 1 5 0 [] true false]) ∧
    (step (stateOf [.node, .source 1 0 "a".toList, .source 1 0 "b".toList, .register 2 5 0 [] true false]) (.register 1 5 0 [] true false)).2 =
      .events [.added 2 2, .sole 3 1, .added 3 1] := by decide +kernel

/-- C134: a deregistration makes exactly the covered sources call back -/
theorem C134_deregister_events_partial {ops : List Op} {n k ty : Nat} {name : Str} {all : Bool}
    (hl : Legal (ops ++ [.deregister n k ty name all])) {evs : List Ev}
    (hr : (step (stateOf ops) (.deregister n k ty name all)).2 = .events evs) :
    ∃ l : List (Nat × Nat), (l.map (·.1)).Nodup ∧ (∀ i, (∃ c, (i, c) ∈ l) ↔ (world ops).Covers ⟨.user k, ty, n, name⟩ i) ∧
      (∀ x ∈ l, ∃ o, (world ops).Observers x.1 o ∧ o.length = x.2) ∧ evs = l.flatMap (fun x => lossEvents x.1 x.2) := by
  obtain ⟨h, hs⟩ := legal_snoc hl
  have hs : Single name := hs
  obtain ⟨b, hv, hb⟩ : ∃ b, Inv b (stateOf ops) (world ops) ∧ (b = true ∨ all = true) := by
    by_cases hpr : ∀ o ∈ ops, o.isPrivate = false
    · exact ⟨true, inv_quiet h.1 hpr, .inl rfl⟩
    · obtain ⟨b, hv⟩ := inv_legal h
      refine ⟨b, hv, .inr ?_⟩
      rcases hl.2 with h2 | h2
      · exact absurd (fun o ho => h2 o (by simp [ho])) hpr
      · exact h2 (.deregister n k ty name all) (by simp)
  rw [step] at hr
  split at hr
  · by_cases hlt : n < (stateOf ops).next
    · have hreg := deregister_inv hv.t (cb := .user k) (ty := ty) (all := all) hs (hb.elim (fun x => .inr (hv.pub x)) .inl) hlt
      split at hreg
      · rename_i hmem
        obtain ⟨r, g, e1, -⟩ := hreg
        rw [e1] at hr
        obtain ⟨l, h1, h2, h3, h4⟩ := events_of hv.t (d := ⟨.user k, ty, n, name⟩) hs (f := lossEvents) (del_events hv.t hmem)
        exact ⟨l, h1, h2, h3, (Res.events.inj hr).symm.trans h4⟩
      · rw [hreg] at hr; cases hr
    · rw [deregister, (obsAt_none hv.t n).2 hlt] at hr; cases hr
  · cases hr

example : Legal ([.node, .source 1 0 "a".toList, .source 1 0 "b".toList, .register 2 5 0 [] true false, .register 1 5 0 [] true false] ++
      [.deregister 1 5 0 [] false]) ∧
    (step (stateOf [.node, .source 1 0 "a".toList, .source 1 0 "b".toList, .register 2 5 0 [] true false, .register 1 5 0 [] true false])
      (.deregister 1 5 0 [] false)).2 = .events [.removed 2 1, .removed 3 0, .none 3 0] := by decide +kernel

/-- C134 fails when trees are joined: a source gets its first observer and calls nobody back -/
theorem C134_attach_violated :
    results [.node, .register 1 5 0 [] false false, .node, .source 2 0 "a".toList, .observed 3, .addChild 1 2, .observed 3] =
      [.made 1, .events [], .made 2, .made 3, .info false 0 [] 0, .ok, .info true 1 [1] 0] := by decide +kernel

/-! ### C135 -/

/-- C135: when all posts have returned, a destination holds exactly the log messages that some tap wanted there when they were
posted.  Partial: `Legal`, and no observer posts a log message. -/
theorem C135_log_exact_partial {ops : List Op} (h : Legal ops) (hn : NoNesting ops) (hp : (world ops).pending = []) (D : Nat) (m : Msg) :
    m ∈ ((stateOf ops).dests D).out ↔ Logged ops D m := by
  rw [← (out_all h hn).char D m, (pending_frames h).1 hp]
  simp

private def isPost : Option Op → Bool
  | some (.post _ _) => true
  | _ => false

private theorem nesting_of {ops : List Op} (h : ∀ j, j < ops.length → isPost ops[j]? = true → 0 ∉ (world (ops.take j)).pending) : NoNesting ops := by
  intro pre i x post e _
  have := h pre.length (by rw [e]; simp) (by rw [e]; simp [isPost])
  rwa [e, List.take_left] at this

/-- C135: whatever observers do, a destination holds nothing else -/
theorem C135_log_sound_partial {ops : List Op} (h : Legal ops) (D : Nat) (m : Msg) (hm : m ∈ ((stateOf ops).dests D).out) : Logged ops D m :=
  (snd_all h).snd D m hm

/-- C135: each message once, in the order of the posts.  Any history. -/
theorem C135_order (ops : List Op) (D : Nat) : ((stateOf ops).dests D).out.Pairwise (fun a b => a.seq < b.seq) :=
  (dests_ok ops D).incr

/-- two taps, below each other, write to one destination -/
def twoTaps : List Op := [.node, .source 1 0 "a".toList, .tap [] 0, .tap "a".toList 0, .tapReset 0 (some 1), .tapReset 1 (some 2),
  .post 2 7, .deliver, .deliver, .deliver, .post 2 8, .deliver, .deliver, .deliver]

example : Legal twoTaps ∧ (world twoTaps).pending = [] ∧
    ((stateOf twoTaps).dests 0).out = [⟨0, 0, 2, 7⟩, ⟨0, 1, 2, 8⟩] ∧ ((stateOf twoTaps).dests 0).dups = 2 := by decide +kernel
example : NoNesting twoTaps := nesting_of (by decide +kernel)

/-- an observer of source 2 posts to source 3 while the message is delivered -/
def nestedPost : List Op := [.node, .source 1 0 "a".toList, .source 1 0 "b".toList, .register 1 5 0 "a".toList true false, .tap [] 0,
  .tapReset 0 (some 1), .post 2 7, .deliver, .post 3 8, .deliver, .deliver, .deliver, .deliver]

/-- C135 fails if an observer posts a log message: the message it was called for is lost if the tap comes after it -/
theorem C135_nested_violated : Legal nestedPost ∧ (world nestedPost).pending = [] ∧ Logged nestedPost 0 ⟨0, 0, 2, 7⟩ ∧
    ⟨0, 0, 2, 7⟩ ∉ ((stateOf nestedPost).dests 0).out ∧ ((stateOf nestedPost).dests 0).out = [⟨0, 1, 3, 8⟩] := by
  refine ⟨by decide +kernel, by decide +kernel, ?_, by decide +kernel, by decide +kernel⟩
  refine ⟨nestedPost.take 6, 2, 7, nestedPost.drop 7, "a".toList, by decide +kernel, by decide +kernel, by decide +kernel,
    0, ⟨[], 0, some 1⟩, 1, by decide +kernel, rfl, rfl, "a".toList, by decide +kernel, .inr ?_, .inl rfl⟩
  exact .up (p := 1) (by decide +kernel) .refl

/-! ### C136 -/

/-- C136: the counters of a destination -/
theorem C136_destination_counts (ops : List Op) (D : Nat) :
    ((stateOf ops).dests D).num = ((stateOf ops).dests D).out.length ∧
    ((stateOf ops).dests D).recv = ((stateOf ops).dests D).num + ((stateOf ops).dests D).dups :=
  ⟨(dests_ok ops D).num, (dests_ok ops D).recv⟩

/-- C136: the counter of a tap -/
theorem C136_tap_count_partial {ops : List Op} (h : Legal ops) (k : Nat) (t : Tap) (ht : (stateOf ops).taps[k]? = some t) :
    t.num = (results ops).count (.tapped k) := by
  rw [results, (snd_all h).num k, numOf, ht]

example : (stateOf twoTaps).taps[1]? = some ⟨some 2, "a".toList, 0, 2⟩ ∧ ((stateOf twoTaps).dests 0).recv = 4 ∧
    ((stateOf twoTaps).dests 0).num = 2 := by decide +kernel

/-! ### C137 -/

/-- C137: an observer of a list of names gets the sources that exist and fit one of them -/
theorem C137_list_partial {ops : List Op} (h : Legal ops) {n k ty : Nat} {l : List (Str × Str × Str)} (h0 : l ≠ []) (hl : Names l)
    (hn : Made ops n) {evs : List Ev} (hr : (step (stateOf ops) (.register n k ty (listText l) false true)).2 = .events evs) (i : Nat) :
    (∃ c, Ev.added i c ∈ evs) ↔ ∃ x ∈ l, (world ops).Covers ⟨.user k, ty, n, x.2.1⟩ i := by
  obtain ⟨b, hv⟩ := inv_legal h
  rw [step] at hr
  split at hr
  · rw [register_list hv.t (parse_list l h0 hl) (by
      intro x hx
      obtain ⟨y, hy, rfl⟩ := List.mem_map.1 hx
      exact (hl y hy).2.1) ((made_iff h n).1 hn) hr i]
    constructor
    · rintro ⟨x, hx, hc⟩
      obtain ⟨y, hy, rfl⟩ := List.mem_map.1 hx
      exact ⟨y, hy, hc⟩
    · rintro ⟨y, hy, hc⟩
      exact ⟨y.2.1, List.mem_map.2 ⟨y, hy, rfl⟩, hc⟩
  · cases hr

example : listText [([], "a".toList, " ".toList), (" ".toList, "b*".toList, [])] = "a , b*".toList ∧
    (step (stateOf [.node, .source 1 0 "a".toList, .source 1 0 "bc".toList, .source 1 0 "c".toList])
      (.register 1 5 0 "a , b*".toList false true)).2 = .events [.sole 2 1, .added 2 1, .sole 3 1, .added 3 1] := by decide +kernel

example : Names [([], "a".toList, " ".toList), (" ".toList, "b*".toList, [])] := by
  intro x hx
  simp only [List.mem_cons, List.not_mem_nil, or_false] at hx
  rcases hx with rfl | rfl
  · exact ⟨nofun, by decide, by decide, by simp [Blanks]⟩
  · exact ⟨by simp [Blanks], by decide, by decide, nofun⟩

/-- C137 fails for a comma at the end: it stands for all names -/
theorem C137_trailing_comma_violated :
    (step (stateOf [.node, .source 1 0 "a".toList, .source 1 0 "c".toList]) (.register 1 5 0 "a,".toList false true)).2 =
      .events [.sole 2 1, .added 2 1, .sole 3 1, .added 3 1] := by decide +kernel

end Sparta.Notify
