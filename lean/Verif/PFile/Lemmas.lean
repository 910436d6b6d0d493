import Verif.PFile.Model
import Verif.Checkpoint.Lemmas2
/-! Reading what was written. -/
namespace Sparta.PFile
open Sparta.ArchData Sparta.Checkpoint

theorem le_length : ∀ (n v : Nat), (le n v).length = n
  | 0, _ => rfl
  | n + 1, v => congrArg (· + 1) (le_length n (v / 256))

theorem unle_le : ∀ (n v : Nat), v < 256 ^ n → unle (le n v) = v
  | 0, v, h => by simp at h; simp [le, unle, h]
  | n + 1, v, h => by
    have h2 : v / 256 < 256 ^ n := by
      rw [Nat.pow_succ] at h
      exact Nat.div_lt_of_lt_mul (by omega)
    unfold le unle
    rw [unle_le n _ h2, UInt8.toNat_ofNat']
    omega

theorem unle_lt : ∀ (l : List UInt8), unle l < 256 ^ l.length
  | [] => by simp [unle]
  | b :: l => by
    have := unle_lt l
    have hb : b.toNat < 256 := b.toNat_lt
    unfold unle
    rw [List.length_cons, Nat.pow_succ]
    omega

theorem ctrl_cons (c : UInt8) (r : List UInt8) (h : isSpace c = false) : (In.mk (c :: r) true).ctrl = (⟨r, true⟩, some c) := by
  unfold In.ctrl
  rw [if_pos rfl]
  simp only [List.dropWhile_cons, h]
  rfl

theorem read_append (a b : List UInt8) (n : Nat) (h : a.length = n) : (In.mk (a ++ b) true).read n = (⟨b, true⟩, a) := by
  subst h
  unfold In.read
  rw [if_pos rfl]
  simp

theorem nextLine_line (i : Nat) (h : i < 2 ^ 64) (r : List UInt8) :
    (In.mk (beginLine i ++ r) true).nextLine = (⟨r, true⟩, some i) := by
  unfold In.nextLine beginLine
  rw [List.cons_append, ctrl_cons _ _ (by decide)]
  dsimp only
  rw [if_pos rfl, read_append _ _ 8 (le_length 8 i)]
  dsimp only
  rw [unle_le 8 i (by exact h)]

theorem nextLine_end (r : List UInt8) : (In.mk (69 :: r) true).nextLine = (⟨r, true⟩, some invalid) := by
  unfold In.nextLine
  rw [ctrl_cons _ _ (by decide)]
  rfl

theorem nextLine_bad (r : List UInt8) : (In.mk r false).nextLine = (⟨r, false⟩, none) := rfl

theorem nextLine_nil : (In.mk [] true).nextLine = (⟨[], false⟩, none) := rfl

theorem lineBytes_length (n : Nat) (d : Data) : (lineBytes n d).length = n := by unfold lineBytes; simp

theorem overwrite_line (n : Nat) (d e : Data) {j : Nat} (h : j < n) : overwrite e 0 (lineBytes n d) j = d j := by
  unfold overwrite
  rw [lineBytes_length, if_pos ⟨Nat.zero_le _, by omega⟩]
  unfold lineBytes
  simp [h]

/-- the lines of one memory in a file -/
def body (L : Nat) (recs : List (Nat × Data)) : List UInt8 := recs.flatMap fun p => beginLine p.1 ++ lineBytes L p.2

theorem body_cons (L : Nat) (p : Nat × Data) (recs : List (Nat × Data)) :
    body L (p :: recs) = beginLine p.1 ++ (lineBytes L p.2 ++ body L recs) := by
  unfold body
  rw [List.flatMap_cons, List.append_assoc]

theorem writeAD_body (m : AD) : writeAD m = body m.lineSize (recsOf (fun _ => true) m) ++ [69] := by
  unfold writeAD body recsOf
  rw [List.filter_eq_self.2 (fun _ _ => rfl), List.flatMap_map]

theorem modify_byteAt' {m : AD} {i : Nat} {l : Line} (h : m.find i = some l) (f : Line → Line) (x : Nat) :
    (m.modify i f).byteAt x = if x / m.lineSize = i then (f l).data (x % m.lineSize) else m.byteAt x := by
  unfold AD.byteAt
  rw [show (m.modify i f).lineSize = m.lineSize from rfl, find_modify]
  by_cases e : x / m.lineSize = i
  · rw [if_pos e, if_pos e, e, h]; rfl
  · rw [if_neg e, if_neg e]; rfl

theorem lineIdx_mul (m : AD) (i : Nat) : m.lineIdx (i * m.lineSize) = i := by
  unfold AD.lineIdx
  rw [Nat.shiftRight_eq_div_pow]
  exact Nat.mul_div_cancel _ (lineSize_pos m)

/-- one turn of the loop on a line of the file -/
theorem restoreLoop_line (fuel : Nat) (m : AD) (w : WF m) (i : Nat) (d : Data) (h : i * m.lineSize < m.size) (r : List UInt8) :
    ∃ q, restoreLoop (fuel + 1) m ⟨beginLine i ++ (lineBytes m.lineSize d ++ r), true⟩ = restoreLoop fuel q ⟨r, true⟩ ∧
      WF q ∧ m.sameCfg q ∧ ∀ x, q.byteAt x = if x / m.lineSize = i then d (x % m.lineSize) else m.byteAt x := by
  have hs := w.size
  have hp := lineSize_pos m
  have hi : i < 2 ^ 63 := by
    have : i ≤ i * m.lineSize := Nat.le_mul_of_pos_right _ hp
    omega
  have hw : wrap (i * m.lineSize) = i * m.lineSize := wrap_le (by omega)
  obtain ⟨q, l, h1, cfg, h3, h4, _⟩ := getLine_spec m w.fill _ h
  rw [Nat.mul_div_cancel _ hp] at h3
  have wq := getLine_wf w h h1
  have hls : q.lineSize = m.lineSize := cfg.lineSize
  refine ⟨q.modify i fun l => ⟨overwrite l.data 0 (lineBytes m.lineSize d), false⟩, ?_, modify_wf wq i _,
    cfg.trans ⟨rfl, rfl, rfl, rfl, rfl, rfl⟩, ?_⟩
  · conv => lhs; unfold restoreLoop
    rw [nextLine_line i (by omega)]
    dsimp only
    rw [if_neg (by unfold invalid; omega), hw, h1]
    dsimp only
    rw [read_append _ _ _ ((lineBytes_length _ _).trans hls.symm)]
    dsimp only
    rw [show q.lineIdx (i * m.lineSize) = i by rw [← hls]; exact lineIdx_mul q i]
  · intro x
    rw [modify_byteAt' h3, hls]
    by_cases e : x / m.lineSize = i
    · rw [if_pos e, if_pos e]
      exact overwrite_line _ _ _ (Nat.mod_lt _ hp)
    · rw [if_neg e, if_neg e, h4]

theorem restoreLoop_spec : ∀ (recs : List (Nat × Data)) (fuel : Nat) (m : AD) (rest : List UInt8), WF m → recs.length < fuel →
    (∀ p ∈ recs, p.1 * m.lineSize < m.size) →
    ∃ q, restoreLoop fuel m ⟨body m.lineSize recs ++ 69 :: rest, true⟩ = (q, ⟨rest, true⟩, true) ∧ WF q ∧ m.sameCfg q ∧
      ∀ x, q.byteAt x = applyRecs m.lineSize recs m.byteAt x := by
  intro recs
  induction recs with
  | nil =>
    intro fuel m rest w hf _
    cases fuel with
    | zero => exact absurd hf (Nat.not_lt_zero _)
    | succ fuel =>
      refine ⟨m, ?_, w, AD.sameCfg.refl m, fun _ => rfl⟩
      rw [show body m.lineSize [] ++ 69 :: rest = 69 :: rest from rfl]
      unfold restoreLoop
      rw [nextLine_end]
      dsimp only
      rw [if_pos rfl]
  | cons p recs ih =>
    intro fuel m rest w hf h
    obtain ⟨i, d⟩ := p
    cases fuel with
    | zero => exact absurd hf (Nat.not_lt_zero _)
    | succ fuel =>
      obtain ⟨q, g1, g2, g3, g4⟩ := restoreLoop_line fuel m w i d (h _ (List.mem_cons_self ..)) (body m.lineSize recs ++ 69 :: rest)
      have hls : q.lineSize = m.lineSize := g3.lineSize
      obtain ⟨r, e1, e2, e3, e4⟩ := ih fuel q rest g2 (by simpa using hf)
        (by intro p hp; rw [hls, g3.2.2.2.2.1]; exact h p (List.mem_cons_of_mem _ hp))
      refine ⟨r, ?_, e2, g3.trans e3, ?_⟩
      · rw [body_cons, List.append_assoc, List.append_assoc, g1, ← hls, e1]
      · intro x
        rw [e4, hls]
        rw [show q.byteAt = _ from funext g4]
        rfl

theorem body_length : ∀ (L : Nat) (recs : List (Nat × Data)), recs.length ≤ (body L recs).length
  | _, [] => Nat.zero_le _
  | L, p :: recs => by
    have := body_length L recs
    rw [body_cons, List.length_append, List.length_append, List.length_cons]
    unfold beginLine
    rw [List.length_cons]
    omega

/-- two memories with the same parameters -/
def Like (m o : AD) : Prop := m.lsb = o.lsb ∧ m.fill = o.fill ∧ m.fsz = o.fsz ∧ m.size = o.size

theorem Like.lineSize {m o : AD} (h : Like m o) : m.lineSize = o.lineSize := by unfold AD.lineSize; rw [h.1]

theorem restoreAD_spec {m o : AD} (wm : WF m) (wo : WF o) (h : Like m o) (rest : List UInt8) :
    ∃ q, restoreAD m ⟨writeAD o ++ rest, true⟩ = (q, ⟨rest, true⟩, true) ∧ WF q ∧ m.sameCfg q ∧ q.byteAt = o.byteAt := by
  obtain ⟨cw, cc, cb⟩ := clean_spec wm
  have hl : m.clean.lineSize = o.lineSize := cc.lineSize.trans h.lineSize
  unfold restoreAD
  rw [if_pos rfl, writeAD_body, List.append_assoc, ← hl]
  obtain ⟨q, e1, e2, e3, e4⟩ := restoreLoop_spec (recsOf (fun _ => true) o)
    ((body m.clean.lineSize (recsOf (fun _ => true) o) ++ ([69] ++ rest)).length + 1) m.clean rest cw
    (by rw [List.length_append]; have := body_length m.clean.lineSize (recsOf (fun _ => true) o); omega)
    (by intro p hp; rw [hl, cc.2.2.2.2.1, h.2.2.2]; exact recsOf_inside _ wo p hp)
  refine ⟨q, e1, e2, cc.trans e3, ?_⟩
  funext x
  rw [e4, hl, recsOf_apply (fun _ => true) wo m.clean.byteAt]
  intro x hx
  rw [cb]
  unfold AD.byteAt
  rcases Option.eq_none_or_eq_some (o.find (x / o.lineSize)) with hn | ⟨l, hl⟩
  · rw [hn, h.lineSize, h.2.1, h.2.2.1]
  · cases hx l hl

theorem restoreAll_spec : ∀ (os ms : List AD), All2 (fun m o => WF m ∧ WF o ∧ Like m o) ms os → ∀ (rest : List UInt8),
    ∃ qs, restoreAll ms ⟨writeAll os ++ rest, true⟩ = (qs, true) ∧ All2 (fun m q => WF q ∧ m.sameCfg q) ms qs ∧
      qs.map AD.byteAt = os.map AD.byteAt
  | [], [], _, _ => ⟨[], rfl, trivial, rfl⟩
  | o :: os, m :: ms, h, rest => by
    obtain ⟨⟨wm, wo, hl⟩, h⟩ := h
    obtain ⟨q, e1, e2, e3, e4⟩ := restoreAD_spec wm wo hl (writeAll os ++ rest)
    obtain ⟨qs, g1, g2, g3⟩ := restoreAll_spec os ms h rest
    refine ⟨q :: qs, ?_, ⟨⟨e2, e3⟩, g2⟩, ?_⟩
    · unfold restoreAll writeAll
      rw [List.flatMap_cons, List.append_assoc]
      show (match restoreAD m ⟨writeAD o ++ (writeAll os ++ rest), true⟩ with | (m, _, false) => _ | (m, s, true) => _) = _
      rw [e1]
      dsimp only
      rw [g1]
    · rw [List.map_cons, List.map_cons, e4, g3]

/-! ### truncated files -/

theorem restoreLoop_bad (fuel : Nat) (m : AD) (r : List UInt8) : (restoreLoop fuel m ⟨r, false⟩).2.2 = false := by
  cases fuel with
  | zero => rfl
  | succ fuel => rfl

theorem restoreLoop_nil (fuel : Nat) (m : AD) : (restoreLoop fuel m ⟨[], true⟩).2.2 = false := by
  cases fuel with
  | zero => rfl
  | succ fuel => rfl

theorem getLine_lineSize {m q : AD} {a : Nat} (h : m.getLine a = some q) : q.lineSize = m.lineSize := by
  unfold AD.getLine at h
  split at h
  · split at h
    · cases h; rfl
    · cases h; rfl
  · cases h

theorem read_short (l : List UInt8) (b : Bool) (n : Nat) (h : l.length < n) : ((In.mk l b).read n).1.good = false := by
  unfold In.read
  cases b with
  | false => rfl
  | true =>
    rw [if_pos rfl]
    dsimp only
    exact decide_eq_false (by omega)

/-- after an index the stream is short or ends within the line -/
theorem restoreLoop_short (fuel : Nat) (m : AD) (s t : In) (i : Nat) (hn : s.nextLine = (t, some i)) (hi : i ≠ invalid)
    (ht : ∀ n, n = m.lineSize → (t.read n).1.good = false) : (restoreLoop fuel m s).2.2 = false := by
  cases fuel with
  | zero => rfl
  | succ fuel =>
    unfold restoreLoop
    rw [hn]
    dsimp only
    rw [if_neg hi]
    rcases Option.eq_none_or_eq_some (m.getLine (wrap (i * m.lineSize))) with e | ⟨q, e⟩
    · rw [e]
    · rw [e]
      dsimp only
      have h1 := ht q.lineSize (getLine_lineSize e)
      generalize (t.read q.lineSize) = u at h1
      obtain ⟨⟨l, g⟩, bs⟩ := u
      dsimp only at h1 ⊢
      subst h1
      exact restoreLoop_bad _ _ _

theorem prefix_cases {α : Type _} {p t a b : List α} (h : p ++ t = a ++ b) :
    (∃ u, u ≠ [] ∧ p ++ u = a) ∨ ∃ p', p = a ++ p' ∧ p' ++ t = b := by
  rcases List.append_eq_append_iff.1 h with ⟨u, h1, h2⟩ | ⟨u, h1, h2⟩
  · cases u with
    | nil => exact Or.inr ⟨[], by simpa using h1.symm, by simpa using h2⟩
    | cons x u => exact Or.inl ⟨x :: u, by simp, h1.symm⟩
  · exact Or.inr ⟨u, h1, h2.symm⟩

theorem restoreLoop_cut : ∀ (recs : List (Nat × Data)) (fuel : Nat) (m : AD) (p t : List UInt8), (∀ r ∈ recs, r.1 < invalid) →
    t ≠ [] → p ++ t = body m.lineSize recs ++ [69] → (restoreLoop fuel m ⟨p, true⟩).2.2 = false := by
  intro recs
  induction recs with
  | nil =>
    intro fuel m p t _ ht h
    cases p with
    | nil => exact restoreLoop_nil _ _
    | cons c p =>
      have h2 : p ++ t = [] := (List.cons.inj h).2
      exact absurd (List.append_eq_nil_iff.1 h2).2 ht
  | cons r recs ih =>
    intro fuel m p t hr ht h
    obtain ⟨i, d⟩ := r
    have hi : i < invalid := hr _ (List.mem_cons_self ..)
    rw [body_cons, List.append_assoc] at h
    rcases prefix_cases h with ⟨u, hu, e⟩ | ⟨p', e, h'⟩
    · cases p with
      | nil => exact restoreLoop_nil _ _
      | cons c p =>
        unfold beginLine at e
        have e1 : c = 76 := (List.cons.inj e).1
        have e2 : p ++ u = le 8 i := (List.cons.inj e).2
        subst e1
        have hlen : p.length < 8 := by
          have : (p ++ u).length = 8 := by rw [e2]; exact le_length 8 i
          rw [List.length_append] at this
          have : 0 < u.length := List.length_pos_iff.2 hu
          omega
        have hn : (In.mk (76 :: p) true).nextLine = (((In.mk p true).read 8).1, some (unle ((In.mk p true).read 8).2)) := by
          unfold In.nextLine
          rw [ctrl_cons _ _ (by decide)]
          rfl
        refine restoreLoop_short fuel m _ _ _ hn ?_ ?_
        · have h8 : ((In.mk p true).read 8).2 = p := by
            unfold In.read
            rw [if_pos rfl]
            exact List.take_of_length_le (Nat.le_of_lt hlen)
          rw [h8]
          have h1 := unle_lt p
          have h2 : 256 ^ p.length ≤ 256 ^ 7 := Nat.pow_le_pow_right (by omega) (by omega)
          unfold invalid
          omega
        · intro n _
          have := read_short p true 8 hlen
          generalize ((In.mk p true).read 8).1 = z at this
          obtain ⟨l, g⟩ := z
          dsimp only at this
          subst this
          rfl
    · subst e
      rw [List.append_assoc] at h'
      have hn := nextLine_line i (by unfold invalid at hi; omega) p'
      rcases prefix_cases h' with ⟨u, hu, e⟩ | ⟨p2, e, h2⟩
      · refine restoreLoop_short fuel m _ _ _ hn (by omega) ?_
        intro n hnl
        subst hnl
        apply read_short
        have : (p' ++ u).length = m.lineSize := by rw [e]; exact lineBytes_length _ _
        rw [List.length_append] at this
        have : 0 < u.length := List.length_pos_iff.2 hu
        omega
      · subst e
        cases fuel with
        | zero => rfl
        | succ fuel =>
          unfold restoreLoop
          rw [hn]
          dsimp only
          rw [if_neg (by omega)]
          rcases Option.eq_none_or_eq_some (m.getLine (wrap (i * m.lineSize))) with e | ⟨q, e⟩
          · rw [e]
          · rw [e]
            dsimp only
            have hq := getLine_lineSize e
            rw [read_append _ _ _ ((lineBytes_length _ _).trans hq.symm)]
            dsimp only
            exact ih fuel _ p2 t (fun r h => hr r (List.mem_cons_of_mem _ h)) ht
              (by rw [h2]; show _ = body q.lineSize recs ++ [69]; rw [hq])

theorem restoreAll_cut : ∀ (os ms : List AD), All2 (fun m o => WF m ∧ WF o ∧ Like m o) ms os → ∀ (p t : List UInt8), t ≠ [] →
    p ++ t = writeAll os → (restoreAll ms ⟨p, true⟩).2 = false
  | [], [], _, p, t, ht, h => by
    simp only [writeAll, List.flatMap_nil, List.append_eq_nil_iff] at h
    exact absurd h.2 ht
  | o :: os, m :: ms, h, p, t, ht, e => by
    obtain ⟨⟨wm, wo, hl⟩, h⟩ := h
    unfold writeAll at e
    rw [List.flatMap_cons] at e
    unfold restoreAll
    rcases prefix_cases e with ⟨u, hu, e1⟩ | ⟨p', e1, e2⟩
    · have hc : (restoreAD m ⟨p, true⟩).2.2 = false := by
        unfold restoreAD
        rw [if_pos rfl]
        have cc := (clean_spec wm).2.1
        refine restoreLoop_cut (recsOf (fun _ => true) o) _ _ p u ?_ hu ?_
        · intro r hr
          have h1 := recsOf_inside _ wo r hr
          have h2 : r.1 ≤ r.1 * o.lineSize := Nat.le_mul_of_pos_right _ (lineSize_pos o)
          have := wo.size
          unfold invalid
          omega
        · rw [e1, writeAD_body, cc.lineSize, hl.lineSize]
      generalize restoreAD m ⟨p, true⟩ = z at hc
      obtain ⟨q, s, b⟩ := z
      dsimp only at hc
      subst hc
      rfl
    · subst e1
      obtain ⟨q, g1, _⟩ := restoreAD_spec wm wo hl p'
      rw [g1]
      dsimp only
      exact restoreAll_cut os ms h p' t ht e2

end Sparta.PFile
