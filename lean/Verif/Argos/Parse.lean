import Verif.Argos.Write
/-! Reading the text files. -/
namespace Sparta.Argos

def Field.triple (f : Field) : Text × Nat × Nat := (f.name, if f.num then f.size else 0, if f.num then 0 else 1)

def desc (fs : List Field) (fmts : List Nat) : Desc := { len := fs.length, fields := fs.map Field.triple, fmts := fmts }

theorem triples_tokens (fs : List Field) : triples (fs.flatMap Field.tokens) = some (fs.map Field.triple) := by
  induction fs with
  | nil => rfl
  | cons f fs ih =>
    rw [List.flatMap_cons, List.map_cons]
    unfold Field.tokens at ih ⊢
    simp only [List.cons_append, List.nil_append, triples]
    rw [ih]
    cases h : f.num <;> simp [undec_dec, Field.triple, h]

theorem tokens_plain (fs : List Field) (h : ∀ f ∈ fs, plainText f.name) : ∀ x ∈ fs.flatMap Field.tokens, plainText x := by
  intro x hx
  obtain ⟨f, hf, hx⟩ := List.mem_flatMap.mp hx
  unfold Field.tokens at hx
  simp only [List.mem_cons, List.not_mem_nil, or_false] at hx
  rcases hx with e | e | e
  · rw [e]; exact h f hf
  · rw [e]; split <;> exact dec_plain _
  · rw [e]; split <;> exact dec_plain _

theorem undecs_map (l : List Nat) : undecs (l.map dec) = some l := by
  induction l with
  | nil => rfl
  | cons x l ih => simp [undecs, undec_dec, ih]

theorem Wrote.maps_read {S : Schema} {o : Out} {L : Log} (w : Wrote S o L) : forLines mapLine [] (tokens 10 o.files.map) = .ok L.maps := by
  have hp : ∀ (n : Nat), ∀ x ∈ [dec n], plainText x := by
    intro n x hx
    rw [List.mem_singleton] at hx
    rw [hx]
    exact dec_plain n
  rw [w.map, tokens_lines _ mapText (fun x _ => no_newline _ _ (dec_plain _) (hp _)),
    forLines_build mapLine mapText Prod.fst Prod.snd L.maps [] ?_ (by simpa using w.nd1)]
  · simp
  · intro m x _
    unfold mapText
    rw [tokens_joined _ _ (dec_plain _) (hp _)]
    simp [mapLine, undec_dec]

theorem Wrote.strs_read {S : Schema} {o : Out} {L : Log} (w : Wrote S o L) : forLines strLine [] (tokens 10 o.files.strs) = .ok L.strs := by
  have hp : ∀ p ∈ L.strs, ∀ x ∈ [dec p.1.2.1, dec p.1.2.2, p.2], plainText x := by
    intro p h x hx
    simp only [List.mem_cons, List.not_mem_nil, or_false] at hx
    rcases hx with e | e | e
    · rw [e]; exact dec_plain _
    · rw [e]; exact dec_plain _
    · rw [e]; exact (w.label p h).2
  rw [w.strs, tokens_lines _ strText (fun x hx => no_newline _ _ (dec_plain _) (hp x hx)),
    forLines_build strLine strText Prod.fst Prod.snd L.strs [] ?_ (by simpa using w.nd3)]
  · simp
  · intro m x hx
    unfold strText
    rw [tokens_joined _ _ (dec_plain _) (hp x hx)]
    simp [strLine, undec_dec]

theorem Wrote.data_read {S : Schema} {o : Out} {L : Log} (w : Wrote S o L) : forLines descLine [] (tokens 10 o.files.data) =
    .ok (L.kinds.map (fun p => (p.1, desc p.2 []))) := by
  have hp : ∀ p ∈ L.kinds, ∀ x ∈ dec p.2.length :: p.2.flatMap Field.tokens, plainText x := by
    intro p h x hx
    rcases List.mem_cons.mp hx with e | hx
    · rw [e]; exact dec_plain _
    · exact tokens_plain _ (w.shape p h).2 x hx
  rw [w.data, tokens_lines _ dataText (fun x hx => no_newline _ _ (dec_plain _) (hp x hx)),
    forLines_build descLine dataText Prod.fst (fun p => desc p.2 []) L.kinds [] ?_ (by simpa using w.nd2)]
  · simp
  · intro m x hx
    unfold dataText
    rw [tokens_joined _ _ (dec_plain _) (hp x hx)]
    simp only [descLine, undec_dec, triples_tokens]
    rfl

theorem addFmts_none (m : List (Nat × Desc)) (pid : Nat) (l : List Nat) (h : pid ∉ m.map Prod.fst) : addFmts m pid l = m := by
  unfold addFmts
  conv => rhs; rw [← List.map_id m]
  apply List.map_congr_left
  intro p hp
  rw [if_neg]
  · rfl
  · intro e
    exact h (e ▸ List.mem_map_of_mem hp)

theorem fmts_build (pre post : List (Nat × List Field)) (hn : ((pre ++ post).map Prod.fst).Nodup) :
    forLines fmtLine (pre.map (fun p => (p.1, desc p.2 (p.2.map (fun f => f.fmt)))) ++ post.map (fun p => (p.1, desc p.2 [])))
      (post.map dispText) = .ok ((pre ++ post).map (fun p => (p.1, desc p.2 (p.2.map (fun f => f.fmt))))) := by
  induction post generalizing pre with
  | nil => simp [forLines]
  | cons p post ih =>
    obtain ⟨pid, fs⟩ := p
    rw [List.map_append, List.nodup_append] at hn
    obtain ⟨n1, n2, n3⟩ := hn
    rw [List.map_cons, List.nodup_cons] at n2
    have hpre : pid ∉ pre.map Prod.fst := fun h => n3 _ h pid (by simp) rfl
    have hl : List.lookup pid (pre.map (fun p => (p.1, desc p.2 (p.2.map (fun f => f.fmt)))) ++
        ((pid, fs) :: post).map (fun p => (p.1, desc p.2 []))) = some (desc fs []) := by
      apply lookup_mem
      · rw [List.map_append, List.map_map, List.map_map, List.nodup_append]
        refine ⟨n1, ?_, ?_⟩
        · show ((pid, fs) :: post).map (fun p => p.1) |>.Nodup
          rw [List.map_cons, List.nodup_cons]
          exact n2
        · exact n3
      · simp
    have ha : addFmts (pre.map (fun p => (p.1, desc p.2 (p.2.map (fun f => f.fmt)))) ++
        ((pid, fs) :: post).map (fun p => (p.1, desc p.2 []))) pid (fs.map (fun f => f.fmt)) =
        (pre ++ [(pid, fs)]).map (fun p => (p.1, desc p.2 (p.2.map (fun f => f.fmt)))) ++ post.map (fun p => (p.1, desc p.2 [])) := by
      have e1 := addFmts_none (pre.map (fun p => (p.1, desc p.2 (p.2.map (fun f => f.fmt))))) pid (fs.map (fun f => f.fmt))
        (by rw [List.map_map]; exact hpre)
      have e2 := addFmts_none (post.map (fun p => (p.1, desc p.2 []))) pid (fs.map (fun f => f.fmt))
        (by rw [List.map_map]; exact n2.1)
      unfold addFmts at e1 e2 ⊢
      rw [List.map_append, e1, List.map_cons, List.map_cons, e2]
      simp [desc]
    show forLines fmtLine _ (dispText (pid, fs) :: post.map dispText) = _
    rw [forLines]
    have ht : tokens 58 (dispText (pid, fs)) = dec pid :: (fs.map (fun f => f.fmt)).map dec := by
      unfold dispText
      rw [tokens_joined _ _ (dec_plain _)]
      · simp
      · intro x hx
        obtain ⟨f, _, e⟩ := List.mem_map.mp hx
        rw [← e]
        exact dec_plain _
    rw [ht]
    simp only [fmtLine, undec_dec, undecs_map]
    rw [hl]
    simp only [Option.isSome_some, if_true]
    rw [ha, ih (pre ++ [(pid, fs)])]
    · simp
    · rw [List.append_assoc, List.singleton_append, List.map_append, List.nodup_append]
      exact ⟨n1, by rw [List.map_cons, List.nodup_cons]; exact n2, n3⟩

theorem Wrote.disp_read {S : Schema} {o : Out} {L : Log} (w : Wrote S o L) :
    forLines fmtLine (L.kinds.map (fun p => (p.1, desc p.2 []))) (tokens 10 o.files.disp) =
    .ok (L.kinds.map (fun p => (p.1, desc p.2 (p.2.map (fun f => f.fmt))))) := by
  have hp : ∀ p ∈ L.kinds, ∀ x ∈ p.2.map (fun f => dec f.fmt), plainText x := by
    intro p _ x hx
    obtain ⟨f, _, e⟩ := List.mem_map.mp hx
    rw [← e]
    exact dec_plain _
  rw [w.disp, tokens_lines _ dispText (fun x hx => no_newline _ _ (dec_plain _) (hp x hx))]
  exact fmts_build [] L.kinds (by simpa using w.nd2)

end Sparta.Argos
