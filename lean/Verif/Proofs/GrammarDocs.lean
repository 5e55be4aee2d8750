import Verif.Proofs.GrammarComplete

/-! Documents and streams of the implemented grammar are runs of the automaton. -/

namespace LibYaml

open Spec

variable {f : Nat → Option TokData} {fuel : Nat}

theorem addPredeclared_table (ts : List TagDir) : addPredeclared ts = table ts := by
  unfold addPredeclared addHandle table predeclared
  by_cases h1 : (ts.any fun e => e.handle == lit ['!']) = true <;>
  by_cases h2 : (ts.any fun e => e.handle == lit ['!', '!']) = true
  · simp [h1, h2]
  · simp [h1, h2]
  · simp [h1, h2]
  · simp only [h1, Bool.false_eq_true, if_false, List.any_append, List.any_cons, List.any_nil, Bool.or_false, h2,
      Bool.false_or, List.filter_cons, Bool.not_false, if_true, List.filter_nil]
    rw [if_neg (by decide)]
    simp

/-- `d` is a directive. -/
def IsDir (d : TokData) : Prop := (∃ v, d = .versionDirective v) ∨ ∃ t, d = .tagDirective t

theorem any_handle {ts : List TagDir} {d : TagDir} : (ts.any fun e => e.handle == d.handle) = true ↔ d.handle ∈ ts.map (·.handle) := by
  simp only [List.any_eq_true, List.mem_map, beq_iff_eq]

theorem adirs_ok {ds : List TokData} {k m fuel : Nat} {d : TokData} {v0 version : Option Version} {ts0 : List TagDir}
    (hs : Seg f k ds m) (hm : f m = some d) (hd : ¬ IsDir d) (hfuel : ds.length < fuel) (hall : ∀ d ∈ ds, IsDir d)
    (hv : v0.toList ++ versionsOf ds = version.toList) (hok : ∀ v, version = some v → v = ⟨1, 1⟩ ∨ v = ⟨1, 2⟩)
    (hnd : ((ts0 ++ tagsOf ds).map (·.handle)).Nodup) :
    adirs f fuel v0 ts0 ts0 k = some (version, ts0 ++ tagsOf ds, ts0 ++ tagsOf ds, m) := by
  induction ds generalizing k fuel v0 ts0 with
  | nil =>
    obtain ⟨g, rfl⟩ : ∃ g, fuel = g + 1 := ⟨fuel - 1, by simp at hfuel; omega⟩
    have : k = m := hs
    subst this
    have hv' : v0 = version := by
      simp only [versionsOf, List.filterMap_nil, List.append_nil] at hv
      cases v0 <;> cases version <;> simp at hv ⊢ <;> exact hv
    subst hv'
    simp only [adirs, hm, tagsOf, List.filterMap_nil, List.append_nil]
    cases d with
    | versionDirective v => exact absurd (.inl ⟨v, rfl⟩) hd
    | tagDirective v => exact absurd (.inr ⟨v, rfl⟩) hd
    | _ => rfl
  | cons t ds ih =>
    obtain ⟨g, rfl⟩ : ∃ g, fuel = g + 1 := ⟨fuel - 1, by simp at hfuel; omega⟩
    obtain ⟨h1, h2⟩ := hs
    have hlen : ds.length < g := by simp at hfuel; omega
    have hall' : ∀ d ∈ ds, IsDir d := fun d hd => hall d (List.mem_cons_of_mem _ hd)
    rcases hall t (by simp) with ⟨w, rfl⟩ | ⟨w, rfl⟩
    · simp only [adirs, h1]
      have hv' : v0.toList ++ w :: versionsOf ds = version.toList := hv
      have hv0 : v0 = none := by
        cases v0 with
        | none => rfl
        | some a => cases version <;> simp at hv'
      subst hv0
      have hver : version = some w := by
        cases version with
        | none => simp at hv'
        | some a => simp at hv'; rw [hv'.1]
      have hw := hok w hver
      rw [if_neg (by simp), if_neg (by rcases hw with rfl | rfl <;> simp)]
      have := @ih (k + 1) g (some w) ts0 h2 hlen hall' hv' (by exact hnd)
      rw [this]; rfl
    · simp only [adirs, h1]
      have e : tagsOf (.tagDirective w :: ds) = w :: tagsOf ds := rfl
      rw [e] at hnd ⊢
      have hnot : ¬ (ts0.any fun e => e.handle == w.handle) = true := by
        intro hc
        have hmem := any_handle.mp hc
        rw [List.map_append, List.map_cons, List.nodup_append] at hnd
        exact hnd.2.2 _ hmem _ (by simp) rfl
      rw [if_neg hnot]
      have := @ih (k + 1) g v0 (ts0 ++ [w]) h2 hlen hall' hv (by rw [List.append_assoc]; exact hnd)
      rw [this]
      simp

theorem askip_ok {j k m fuel : Nat} {d : TokData} (hs : Seg f k (List.replicate j .documentEnd) m) (hm : f m = some d)
    (hd : d ≠ .documentEnd) (hfuel : j < fuel) : askip f fuel k = some m := by
  induction j generalizing k fuel with
  | zero =>
    obtain ⟨g, rfl⟩ : ∃ g, fuel = g + 1 := ⟨fuel - 1, by omega⟩
    have : k = m := hs
    subst this
    simp only [askip, hm]
  | succ j ih =>
    obtain ⟨g, rfl⟩ : ∃ g, fuel = g + 1 := ⟨fuel - 1, by omega⟩
    rw [List.replicate_succ] at hs
    obtain ⟨h1, h2⟩ := hs
    simp only [askip, h1]
    exact ih h2 (by omega)

/-- The first token of `explicit_document* STREAM-END`. -/
theorem docs_head {v : Variant} {r : List TokData} {er : List EvData} (h : Docs v r er) :
    ∃ d w, r = d :: w ∧ d.startsDocument = true := by
  cases h with
  | done => exact ⟨_, _, rfl, rfl⟩
  | @doc ds version tags n en r er k hd _ _ =>
    cases ds with
    | nil => exact ⟨_, _, rfl, rfl⟩
    | cons d ds =>
      refine ⟨d, _, rfl, ?_⟩
      rcases hd.1 d (by simp) with ⟨w, rfl⟩ | ⟨w, rfl⟩ <;> rfl

theorem starts_follows {d : TokData} (h : d.startsDocument = true) : follows false d = true ∧ d ≠ .documentEnd := by
  cases d <;> simp [TokData.startsDocument, follows] at h ⊢

/-- The end of a document and what follows. -/
theorem docEnd_runs {k m k' fuel : Nat} {r : List TokData} {er : List EvData} {tags : List TagDir} {d : TokData} {w : List TokData}
    {cend : AC} (hs : Seg f m (List.replicate k .documentEnd ++ r) k') (hr : r = d :: w) (hd : d.startsDocument = true)
    (hfuel : k < fuel) (ih : ∀ m', Seg f m' r k' → Thn f fuel (aexplicit f fuel ⟨.documentStart, [], m', []⟩) er cend) :
    Runs f fuel ⟨.documentEnd, [], m, tags⟩ (.documentEnd (k == 0) :: er) cend := by
  cases k with
  | zero =>
    have hs' : Seg f m r k' := hs
    have hm : f m = some d := by rw [hr] at hs'; exact hs'.1
    refine ⟨⟨.documentStart, [], m, []⟩, ?_, runs_of_thn ?_⟩
    · simp only [astep, adocEnd, hm]
      cases d <;> simp [TokData.startsDocument] at hd <;> rfl
    · have e : askip f fuel m = some m := askip_ok (j := 0) rfl hm (starts_follows hd).2 hfuel
      simp only [astep, e]
      exact ih m hs'
  | succ k =>
    rw [List.replicate_succ] at hs
    obtain ⟨h1, h2⟩ := hs
    obtain ⟨m2, h2, h3⟩ := seg_append.mp h2
    have hm : f m2 = some d := by rw [hr] at h3; exact h3.1
    refine ⟨⟨.documentStart, [], m + 1, []⟩, ?_, runs_of_thn ?_⟩
    · simp only [astep, adocEnd, h1]
      rfl
    · have e : askip f fuel (m + 1) = some m2 := askip_ok h2 hm (starts_follows hd).2 (by omega)
      simp only [astep, e]
      exact ih m2 h3

theorem next_token {k m k' : Nat} {r : List TokData} {d : TokData} {w : List TokData}
    (hs : Seg f m (List.replicate k .documentEnd ++ r) k') (hr : r = d :: w) (hd : d.startsDocument = true) :
    ∃ d', f m = some d' ∧ (d'.startsDocument = true ∨ d' = .documentEnd) := by
  cases k with
  | zero => have hs' : Seg f m r k' := hs; rw [hr] at hs'; exact ⟨d, hs'.1, .inl hd⟩
  | succ k => rw [List.replicate_succ] at hs; exact ⟨_, hs.1, .inr rfl⟩

theorem docs_complete {v : Variant} (hv : v ≠ .documented) {r : List TokData} {er : List EvData} (h : Docs v r er) :
    ∀ (m k' : Nat) (st : PState), Seg f m r k' → r.length < fuel →
      Thn f fuel (aexplicit f fuel ⟨st, [], m, []⟩) er ⟨.done, [], k', []⟩ := by
  induction h with
  | done =>
    intro m k' st hs hfuel
    obtain ⟨h1, h2⟩ := seg_one.mp hs
    simp only [aexplicit, h1, AC.to, AC.next, h2]
    exact thn_one
  | @doc ds version tags n en r er k hdir hn hr ih =>
    intro m k' st hs hfuel
    simp only [List.append_assoc, List.length_append, List.length_cons, List.length_replicate] at hs hfuel
    obtain ⟨m1, h1, h2, h3⟩ := seg_append.mp hs
    obtain ⟨m2, h3, h4⟩ := seg_append.mp h3
    obtain ⟨hall, hvs, hok, hts, hnd⟩ := hdir
    have hdirs : adirs f fuel none [] [] m = some (version, tags, tags, m1) := by
      have := adirs_ok (ds := ds) (fuel := fuel) (v0 := none) (ts0 := []) h1 h2 (by rintro (⟨_, h⟩ | ⟨_, h⟩) <;> cases h)
        (by omega) hall hvs hok (by rw [List.nil_append, hts]; exact hnd)
      rw [this, List.nil_append, hts]
    have e : aexplicit f fuel ⟨st, [], m, []⟩ = some (.documentStart version tags false,
        ⟨.documentContent, [.documentEnd], m1 + 1, table tags⟩) := by
      have hfirst : ∃ d, f m = some d ∧ d ≠ .streamEnd := by
        cases ds with
        | nil => have : m = m1 := h1; subst this; exact ⟨_, h2, by simp⟩
        | cons d ds =>
          refine ⟨d, h1.1, ?_⟩
          rcases hall d (by simp) with ⟨w, rfl⟩ | ⟨w, rfl⟩ <;> simp
      obtain ⟨d, hd, hne⟩ := hfirst
      unfold aexplicit
      simp only [hd]
      cases d with
      | streamEnd => exact absurd rfl hne
      | _ => simp only [hdirs, h2, if_true, addPredeclared_table]
    rw [e]
    refine thn_cons ?_
    obtain ⟨d, w, hrw, hsd⟩ := docs_head hr
    obtain ⟨d', hd', hd''⟩ := next_token h4 hrw hsd
    have hfol : follows false d' = true := by
      rcases hd'' with h | h
      · exact (starts_follows h).1
      · subst h; rfl
    have r1 : Runs f fuel ⟨.documentContent, [.documentEnd], m1 + 1, table tags⟩ en ⟨.documentEnd, [], m2, table tags⟩ := by
      apply runs_of_thn
      cases hn with
      | missing =>
        have : m1 + 1 = m2 := h3
        rw [this]
        simp only [astep, hd', AC.pop]
        rw [if_pos (by rcases hd'' with h | h <;> simp [h])]
        exact thn_one
      | present hn =>
        obtain ⟨d0, r0, h0, hb⟩ := node_begins hn
        have hd0 : f (m1 + 1) = some d0 := by rw [h0] at h3; exact h3.1
        have e : astep f fuel ⟨.documentContent, [.documentEnd], m1 + 1, table tags⟩ =
            anode f true false ⟨.documentContent, [.documentEnd], m1 + 1, table tags⟩ := by
          simp only [astep, hd0]
          rw [if_neg]
          cases d0 <;> simp [begins, TokData.startsDocument] at hb ⊢
        rw [e]
        exact complete hv hn ⟨.documentContent, [.documentEnd], m1 + 1, table tags⟩ .documentEnd [] m2 d' rfl rfl h3 hd' hfol
    refine runs_append r1 ?_
    exact docEnd_runs h4 hrw hsd (by omega) (fun m' hs' => ih m' k' .documentStart hs' (by omega))

/-- Every word of the grammar as implemented is accepted with its events. -/
theorem stream_complete {v : Variant} (hv : v ≠ .documented) {ts : List TokData} {ev : List EvData} (h : Stream v ts ev)
    {k' : Nat} (hs : Seg f 0 ts k') (hfuel : ts.length < fuel) :
    Runs f fuel ⟨.streamStart, [], 0, []⟩ ev ⟨.done, [], k', []⟩ := by
  cases h with
  | @explicit r er enc hd =>
    obtain ⟨h1, h2⟩ := hs
    simp only [List.length_cons] at hfuel
    obtain ⟨d, w, hrw, hsd⟩ := docs_head hd
    have hd1 : f 1 = some d := by rw [hrw] at h2; exact h2.1
    refine ⟨⟨.implicitDocumentStart, [], 1, []⟩, by simp only [astep, h1]; rfl, runs_of_thn ?_⟩
    have e : astep f fuel ⟨.implicitDocumentStart, [], 1, []⟩ = aexplicit f fuel ⟨.implicitDocumentStart, [], 1, []⟩ := by
      simp only [astep, hd1]
      rw [if_pos hsd]
    rw [e]
    exact docs_complete hv hd 1 k' .implicitDocumentStart h2 (by omega)
  | @implicit n en r er enc k hn hd =>
    simp only [List.cons_append, List.append_assoc, List.length_append, List.length_cons, List.length_replicate] at hs hfuel
    obtain ⟨h1, h2⟩ := hs
    obtain ⟨m, h2, h3⟩ := seg_append.mp h2
    obtain ⟨d, w, hrw, hsd⟩ := docs_head hd
    obtain ⟨d', hd', hd''⟩ := next_token h3 hrw hsd
    have hfol : follows false d' = true := by
      rcases hd'' with h | h
      · exact (starts_follows h).1
      · subst h; rfl
    obtain ⟨d0, r0, h0, hb⟩ := node_begins hn
    have hd0 : f 1 = some d0 := by rw [h0] at h2; exact h2.1
    refine ⟨⟨.implicitDocumentStart, [], 1, []⟩, by simp only [astep, h1]; rfl,
      ⟨.blockNode, [.documentEnd], 1, table []⟩, ?_, ?_⟩
    · simp only [astep, hd0]
      rw [if_neg (by cases d0 <;> simp [begins, TokData.startsDocument] at hb ⊢), if_neg (by omega), addPredeclared_table]
    · have r1 : Runs f fuel ⟨.blockNode, [.documentEnd], 1, table []⟩ en ⟨.documentEnd, [], m, table []⟩ := by
        apply runs_of_thn
        exact complete hv hn ⟨.blockNode, [.documentEnd], 1, table []⟩ .documentEnd [] m d' rfl rfl h2 hd' hfol
      refine runs_append r1 ?_
      exact docEnd_runs h3 hrw hsd (by omega) (fun m' hs' => docs_complete hv hd m' k' .documentStart hs' (by omega))

end LibYaml
