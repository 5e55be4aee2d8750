import Verif.Spec.TextDocs
import Verif.Props.Loader
import Verif.Proofs.LoaderSim
import Mathlib.Data.List.Forall2

/-!
# Lemmas for C60: which results calls of the loader have, if the events of the stream are known
-/

namespace LibYaml

open Spec

variable {σ : Type}

/-! ### Anchors -/

/-- The anchors are right in events that follow nodes with the anchors `S`. -/
def AnchoredFrom (S : List Text) (w : List EvData) : Prop :=
  (∀ u a v, w = u ++ .alias a :: v → a ∈ S ∨ ∃ e ∈ u, anchorOf e = some a) ∧
  ∀ u e v a, w = u ++ e :: v → anchorOf e = some a → a ∉ S ∧ ∀ e' ∈ u, anchorOf e' ≠ some a

theorem anchoredFrom_nil (S : List Text) : AnchoredFrom S [] := by
  constructor
  · intro u a v h; cases u <;> cases h
  · intro u e v a h; cases u <;> cases h

theorem anchoredFrom_cons (S : List Text) (e : EvData) (w : List EvData) :
    AnchoredFrom S (e :: w) ↔ (∀ a, e = .alias a → a ∈ S) ∧ (∀ a, anchorOf e = some a → a ∉ S) ∧
      AnchoredFrom (match anchorOf e with | none => S | some a => S ++ [a]) w := by
  have hmem : ∀ a, a ∈ (match anchorOf e with | none => S | some a => S ++ [a]) ↔ a ∈ S ∨ anchorOf e = some a := by
    intro a
    cases anchorOf e with
    | none => simp
    | some b => simp [eq_comm]
  constructor
  · rintro ⟨h1, h2⟩
    refine ⟨?_, ?_, ?_, ?_⟩
    · rintro a rfl
      rcases h1 [] a w rfl with h | ⟨e, he, _⟩
      · exact h
      · cases he
    · intro a ha
      exact (h2 [] e w a rfl ha).1
    · rintro u a v rfl
      rw [hmem]
      rcases h1 (e :: u) a v rfl with h | ⟨e', he, h⟩
      · exact .inl (.inl h)
      · rcases List.mem_cons.mp he with rfl | he
        · exact .inl (.inr h)
        · exact .inr ⟨e', he, h⟩
    · rintro u e' v a rfl ha
      obtain ⟨k1, k2⟩ := h2 (e :: u) e' v a rfl ha
      rw [hmem]
      refine ⟨?_, fun x hx => k2 x (.tail _ hx)⟩
      rintro (h | h)
      · exact k1 h
      · exact k2 e (.head _) h
  · rintro ⟨h1, h2, h3, h4⟩
    constructor
    · intro u a v h
      cases u with
      | nil =>
        injection h with h _
        exact .inl (h1 a h)
      | cons e' u =>
        injection h with h h'
        subst h
        rcases h3 u a v h' with h | ⟨x, hx, h⟩
        · rcases (hmem a).mp h with h | h
          · exact .inl h
          · exact .inr ⟨e, .head _, h⟩
        · exact .inr ⟨x, .tail _ hx, h⟩
    · intro u x v a h ha
      cases u with
      | nil =>
        injection h with h _
        subst h
        exact ⟨h2 a ha, fun _ h => by cases h⟩
      | cons e' u =>
        injection h with h h'
        subst h
        obtain ⟨k1, k2⟩ := h4 u x v a h' ha
        rw [hmem] at k1
        refine ⟨fun h => k1 (.inl h), ?_⟩
        intro y hy
        rcases List.mem_cons.mp hy with rfl | hy
        · exact fun h => k1 (.inr h)
        · exact k2 y hy

theorem anchorFault_none (w : List Event) : ∀ seen : List (Text × Mark),
    anchorFault seen w = none ↔ AnchoredFrom (seen.map (·.1)) (w.map Event.data) := by
  induction w with
  | nil => intro seen; exact ⟨fun _ => anchoredFrom_nil _, fun _ => rfl⟩
  | cons e w ih =>
    intro seen
    rw [List.map_cons, anchoredFrom_cons, anchorFault]
    have hany : ∀ a, (seen.any fun p => p.1 == a) = true ↔ a ∈ seen.map (·.1) := by
      intro a
      simp only [List.any_eq_true, beq_iff_eq, List.mem_map]
    have hfind : ∀ a, seen.find? (fun p => p.1 == a) = none ↔ a ∉ seen.map (·.1) := by
      intro a
      rw [List.find?_eq_none]
      simp only [beq_iff_eq, List.mem_map, not_exists, not_and]
    have hal : ∀ (d : EvData), (∀ a, d ≠ .alias a) →
        ((match anchorOf d with
          | none => anchorFault seen w
          | some a =>
            match seen.find? (fun p => p.1 == a) with
            | some p => some (Fail.composer (some "found duplicate anchor; first occurrence") p.2 "second occurrence" e.start)
            | none => anchorFault (seen ++ [(a, e.start)]) w) = none ↔
        (∀ a, d = .alias a → a ∈ seen.map (·.1)) ∧ (∀ a, anchorOf d = some a → a ∉ seen.map (·.1)) ∧
          AnchoredFrom (match anchorOf d with | none => seen.map (·.1) | some a => seen.map (·.1) ++ [a]) (w.map Event.data)) := by
      intro d hd
      cases ha : anchorOf d with
      | none =>
        simp only
        rw [ih]
        exact ⟨fun h => ⟨fun a h' => absurd h' (hd a), fun a h' => by simp at h', h⟩, fun h => h.2.2⟩
      | some b =>
        simp only
        cases hf : seen.find? (fun p => p.1 == b) with
        | some p =>
          simp only
          constructor
          · intro h; simp at h
          · intro h
            have := (hfind b).mpr (h.2.1 b rfl)
            rw [hf] at this
            cases this
        | none =>
          simp only
          rw [ih, List.map_append]
          refine ⟨fun h => ⟨fun a h' => absurd h' (hd a), fun a h' => ?_, h⟩, fun h => h.2.2⟩
          injection h' with h'
          subst h'
          exact (hfind b).mp hf
    cases hd : e.data with
    | «alias» a =>
      simp only
      by_cases hs : (seen.any fun p => p.1 == a) = true
      · rw [if_pos hs, ih]
        refine ⟨fun h => ⟨?_, ?_, h⟩, fun h => h.2.2⟩
        · intro b h'
          injection h' with h'
          subst h'
          exact (hany a).mp hs
        · intro b h'
          simp [anchorOf] at h'
      · rw [if_neg hs]
        constructor
        · intro h; cases h
        · intro h
          exact absurd ((hany a).mpr (h.1 a rfl)) hs
    | _ =>
      have := hal e.data (by intro a h; rw [hd] at h; cases h)
      rw [hd] at this
      exact this

theorem anchored_from (w : List EvData) : Anchored w ↔ AnchoredFrom [] w := by
  constructor
  · rintro ⟨h1, h2⟩
    exact ⟨fun u a v h => .inr (h1 u a v h), fun u e v a h ha => ⟨List.not_mem_nil, h2 u e v a h ha⟩⟩
  · rintro ⟨h1, h2⟩
    exact ⟨fun u a v h => (h1 u a v h).resolve_left List.not_mem_nil, fun u e v a h ha => (h2 u e v a h ha).2⟩

/-- The two descriptions of right anchors agree. -/
theorem anchored_iff (w : List Event) : anchorFault [] w = none ↔ Anchored (w.map Event.data) := by
  rw [anchorFault_none, anchored_from]
  rfl

theorem NoEnd.of_node {w : List Event} (h : G .node (w.map Event.data)) : NoEnd w := by
  intro e he b hd
  exact g_noEnd h b (List.mem_map.mpr ⟨e, he, hd⟩)

/-! ### The events of a run are determined -/

theorem Evs.compare {S : TokSrc σ} {n : Int} {fuel : Nat} {p q r : Parser σ} {v w : List Event} (h1 : Evs S n fuel p v q)
    (h2 : Evs S n fuel p w r) : (∃ u, w = v ++ u ∧ Evs S n fuel q u r) ∨ ∃ u, v = w ++ u ∧ Evs S n fuel r u q := by
  induction h1 generalizing w with
  | nil => exact .inl ⟨w, rfl, h2⟩
  | @cons p e q1 v q ha hb ih =>
    cases h2 with
    | nil => exact .inr ⟨_, rfl, .cons ha hb⟩
    | @cons _ e' q2 w _ hc hd =>
      rw [ha] at hc
      cases hc
      rcases ih hd with ⟨u, rfl, h⟩ | ⟨u, rfl, h⟩
      · exact .inl ⟨u, rfl, h⟩
      · exact .inr ⟨u, rfl, h⟩

theorem Evs.split {S : TokSrc σ} {n : Int} {fuel : Nat} {p r : Parser σ} {v w : List Event} (h : Evs S n fuel p (v ++ w) r) :
    ∃ q, Evs S n fuel p v q ∧ Evs S n fuel q w r := by
  induction v generalizing p with
  | nil => exact ⟨p, .nil, h⟩
  | cons e v ih =>
    cases h with
    | cons h1 h2 =>
      obtain ⟨q, h3, h4⟩ := ih h2
      exact ⟨q, .cons h1 h3, h4⟩

theorem Evs.fun {S : TokSrc σ} {n : Int} {fuel : Nat} {p q r : Parser σ} {v : List Event} (h1 : Evs S n fuel p v q)
    (h2 : Evs S n fuel p v r) : q = r := by
  rcases h1.compare h2 with ⟨u, e, h⟩ | ⟨u, e, h⟩
  · have : u = [] := by simpa using e
    subst this
    cases h
    rfl
  · have : u = [] := by simpa using e
    subst this
    cases h
    rfl

theorem evs_of_parseN {S : TokSrc σ} {n : Int} {fuel : Nat} {p q : Parser σ} {w : List Event}
    (h : parseN S n fuel w.length p = .ok (w.map .event, q)) : Evs S n fuel p w q := by
  induction w generalizing p with
  | nil => cases h; exact .nil
  | cons e w ih =>
    rw [List.length_cons] at h
    unfold parseN at h
    cases hp : parse S n fuel p with
    | error e' => rw [hp] at h; cases h
    | ok r =>
      obtain ⟨o, p1⟩ := r
      rw [hp] at h
      simp only at h
      cases hq : parseN S n fuel w.length p1 with
      | error e' => rw [hq] at h; cases h
      | ok r =>
        obtain ⟨os, p2⟩ := r
        rw [hq] at h
        simp only [List.map_cons, Except.ok.injEq, Prod.mk.injEq, List.cons.injEq] at h
        obtain ⟨⟨rfl, rfl⟩, rfl⟩ := h
        exact .cons hp (ih hq)

/-- No event can be parsed. -/
def AllRead (S : TokSrc σ) (n : Int) (fuel : Nat) (p : Parser σ) : Prop := parse S n fuel p = .ok (.noEvent, p)

theorem over_done {S : TokSrc σ} {n : Int} {fuel : Nat} {p : Parser σ} (h : p.st.state = .done) : AllRead S n fuel p := by
  unfold AllRead parse
  rw [show (p.st.ended || p.error.isSome || p.st.state = .done) = true by simp [h]]
  rfl

theorem AllRead.evs {S : TokSrc σ} {n : Int} {fuel : Nat} {p q : Parser σ} {w : List Event} (h : AllRead S n fuel p) (h2 : Evs S n fuel p w q) :
    w = [] ∧ q = p := by
  cases h2 with
  | nil => exact ⟨rfl, rfl⟩
  | cons h1 _ => rw [h] at h1; cases h1

/-! ### Documents -/

theorem reps_left {ws : List (List Event)} {ds : List Doc} (h : List.Forall₂ RepDoc ws ds) : ∀ w ∈ ws, ∃ d, RepDoc w d := by
  induction h with
  | nil => intro w hw; cases hw
  | cons a _ ih =>
    intro w hw
    rcases List.mem_cons.mp hw with rfl | hw
    · exact ⟨_, a⟩
    · exact ih w hw

theorem reps_right {ws : List (List Event)} {ds : List Doc} (h : List.Forall₂ RepDoc ws ds) : ∀ d ∈ ds, ∃ w, RepDoc w d := by
  induction h with
  | nil => intro w hw; cases hw
  | cons a _ ih =>
    intro w hw
    rcases List.mem_cons.mp hw with rfl | hw
    · exact ⟨_, a⟩
    · exact ih w hw

theorem reps_data {ws : List (List Event)} {ds : List Doc} (h : List.Forall₂ RepDoc ws ds) :
    List.Forall₂ RepData (ws.map (List.map Event.data)) ds := by
  induction h with
  | nil => exact .nil
  | cons a _ ih => exact .cons ⟨_, rfl, a⟩ ih

/-- The events of a document that can be composed. -/
def DocEvs (w : List Event) : Prop :=
  ∃ es body ee, w = es :: body ++ [ee] ∧ (∃ v ts i, es.data = .documentStart v ts i) ∧ (∃ j, ee.data = .documentEnd j) ∧
    G .node (body.map Event.data) ∧ anchorFault [] body = none

theorem docEvs_iff (w : List Event) : DocEvs w ↔ DocWord (w.map Event.data) := by
  constructor
  · rintro ⟨es, body, ee, rfl, ⟨v, ts, i, h1⟩, ⟨j, h2⟩, h3, h4⟩
    exact ⟨v, ts, i, body.map Event.data, j, h3, (anchored_iff _).mp h4, by simp [h1, h2]⟩
  · rintro ⟨v, ts, i, body, j, h3, h4, h5⟩
    cases w with
    | nil => simp at h5
    | cons es w =>
      rw [List.map_cons, List.cons_append] at h5
      injection h5 with h5 h6
      obtain ⟨b, c, rfl, rfl, h7⟩ := List.map_eq_append_iff.mp h6
      obtain ⟨ee, r, rfl, h8, h9⟩ := List.map_eq_cons_iff.mp h7
      rw [List.map_eq_nil_iff] at h9
      subst h9
      exact ⟨es, b, ee, rfl, ⟨v, ts, i, h5⟩, ⟨j, h8⟩, h3, (anchored_iff _).mpr h4⟩

/-- Two words of documents at the same place are equal. -/
theorem docs_same {b b' t t' : List Event} {e e' : Event} (hb : NoEnd b) (hb' : NoEnd b') (he : ∃ j, e.data = .documentEnd j)
    (he' : ∃ j, e'.data = .documentEnd j) (h : b ++ e :: t = b' ++ e' :: t') : b = b' ∧ e = e' ∧ t = t' := by
  induction b generalizing b' with
  | nil =>
    cases b' with
    | nil => injection h with h1 h2; exact ⟨rfl, h1, h2⟩
    | cons x b' =>
      injection h with h1 h2
      subst h1
      obtain ⟨j, he⟩ := he
      exact absurd he (hb' _ (.head _) j)
  | cons x b ih =>
    cases b' with
    | nil =>
      injection h with h1 h2
      subst h1
      obtain ⟨j, he'⟩ := he'
      exact absurd he' (hb _ (.head _) j)
    | cons y b' =>
      injection h with h1 h2
      subst h1
      obtain ⟨rfl, h3⟩ := ih (b' := b') (fun z hz => hb z (.tail _ hz)) (fun z hz => hb' z (.tail _ hz)) h2
      exact ⟨rfl, h3⟩

/-- The part of a run of events up to a place inside a document. -/
theorem inside {b w t : List Event} {e : Event} (hw : NoEnd w) (he : ∃ j, e.data = .documentEnd j) (h : w <+: b ++ e :: t) : w <+: b := by
  obtain ⟨u, hu⟩ := h
  rcases List.append_eq_append_iff.mp hu with ⟨a', h1, _⟩ | ⟨c', h1, h2⟩
  · exact ⟨a', h1.symm⟩
  · cases c' with
    | nil => rw [List.append_nil] at h1; exact ⟨[], by rw [h1, List.append_nil]⟩
    | cons x c =>
      injection h2 with h2 _
      subst h2
      obtain ⟨j, he⟩ := he
      exact absurd he (hw e (by rw [h1]; simp) j)

theorem ready_not_ended {p : Parser σ} (h : Ready p .start ∨ Ready p .docs) : ¬ Ended p := by
  intro he
  rcases h with h | h
  · have := h.going.ended; rw [he.ended] at this; cases this
  · have := h.going.ended; rw [he.ended] at this; cases this

theorem preOf_fun {S : TokSrc σ} {n : Int} {fuel : Nat} {p q r : Parser σ} {pre pre' v w : List Event} (h1 : PreOf p pre) (h2 : PreOf p pre')
    (h3 : Evs S n fuel p (pre ++ v) q) (h4 : Evs S n fuel p (pre' ++ w) r) : pre = pre' := by
  unfold PreOf at h1 h2
  split at h1
  · rename_i hs
    rw [if_pos hs] at h2
    obtain ⟨e, _, rfl, _⟩ := h1
    obtain ⟨e', _, rfl, _⟩ := h2
    cases h3 with
    | cons a _ =>
      cases h4 with
      | cons b _ => rw [a] at b; cases b; rfl
  · rename_i hs
    rw [if_neg hs] at h2
    rw [h1, h2]

/-- If the events of the stream are known, their anchors are right and memory suffices, the results of the calls are known. -/
theorem loads_known {room} {S : TokSrc σ} {n : Int} {fuel : Nat} {p q r : Parser σ} {os : List LOut} {pre : List Event} {ws : List (List Event)} {ee : Event}
    (h : Loads room S n fuel p os r) (hp : Ready p .start ∨ Ready p .docs) (hpre : PreOf p pre)
    (hev : Evs S n fuel p (pre ++ (ws.flatten ++ [ee])) q) (hee : ee.data = .streamEnd) (hq : AllRead S n fuel q) (hws : ∀ w ∈ ws, DocEvs w)
    (hroom : ∀ w ∈ ws, ∀ k, k < w.length → room k = true) :
    .failed ∉ os ∧ (ws.length < os.length →
      ∃ ds j, os = ds.map .doc ++ List.replicate (j + 1) (.doc Doc.empty) ∧ List.Forall₂ RepDoc ws ds) := by
  induction h generalizing pre ws with
  | nil => exact ⟨List.not_mem_nil, fun h => by simp at h⟩
  | @cons p o p' os r h1 hf h2 ih =>
    cases h1 with
    | @doc pre' w' d _ ha hb hc hd he =>
      obtain rfl := preOf_fun hpre ha hev hb
      obtain ⟨es', body', ee', rfl, hf', hg'⟩ := hd
      obtain ⟨_, _, _, _, heq, hs', _, hend', _⟩ := id hc
      obtain ⟨h5, h6⟩ := List.cons.inj heq
      obtain ⟨h6, h7⟩ := List.append_inj' h6 rfl
      injection h7 with h7
      subst h5 h6 h7
      obtain ⟨p1, k1, k2⟩ := hev.split
      obtain ⟨p1', k3, k4⟩ := hb.split
      obtain rfl := k1.fun k3
      have hrest : ∀ u, ws.flatten ++ [ee] = (es' :: body' ++ [ee']) ++ u →
          ∃ ws', ws = (es' :: body' ++ [ee']) :: ws' ∧ u = ws'.flatten ++ [ee] := by
        intro u hu
        cases ws with
        | nil =>
          injection hu with hu _
          subst hu
          rw [hee] at hs'
          cases hs'
        | cons w ws' =>
          obtain ⟨es, body, ef, rfl, _, g2, g3, _⟩ := hws w (.head _)
          rw [List.flatten_cons] at hu
          simp only [List.cons_append, List.append_assoc, List.nil_append] at hu
          obtain ⟨h5, h6⟩ := List.cons.inj hu
          obtain ⟨h7, h8, h9⟩ := docs_same (NoEnd.of_node g3) (NoEnd.of_node hg') g2 ⟨_, hend'⟩ h6
          subst h5 h7 h8
          exact ⟨ws', rfl, h9.symm⟩
      rcases k4.compare k2 with ⟨u, hu, k5⟩ | ⟨u, hu, k5⟩
      · obtain ⟨ws', rfl, rfl⟩ := hrest u hu
        have hpre2 : PreOf p' [] := by
          unfold PreOf
          rw [if_neg (fun hs => by cases (pinv_start he.inv).mp hs)]
        obtain ⟨m1, m2⟩ := ih (.inr he) hpre2 k5 (fun w hw => hws w (.tail _ hw)) (fun w hw => hroom w (.tail _ hw))
        refine ⟨by simpa using m1, fun hl => ?_⟩
        obtain ⟨ds, j, rfl, m4⟩ := m2 (by simpa using hl)
        exact ⟨d :: ds, j, rfl, .cons hc m4⟩
      · obtain ⟨rfl, rfl⟩ := hq.evs k5
        rw [List.append_nil] at hu
        obtain ⟨ws', _, h⟩ := hrest [] (by rw [List.append_nil, hu])
        simp at h
    | @last pre' e _ ha hb hc hd =>
      obtain rfl := preOf_fun hpre ha hev hb
      obtain ⟨p1, k1, k2⟩ := hev.split
      obtain ⟨p1', k3, k4⟩ := hb.split
      obtain rfl := k1.fun k3
      have hw0 : ws = [] := by
        cases ws with
        | nil => rfl
        | cons w ws' =>
          obtain ⟨es, body, ef, rfl, ⟨v, ts, i, g1⟩, _⟩ := hws w (.head _)
          cases k4 with
          | cons a _ =>
            rw [List.flatten_cons, List.cons_append, List.cons_append] at k2
            cases k2 with
            | cons b _ =>
              rw [a] at b
              cases b
              rw [hc] at g1
              cases g1
      subst hw0
      obtain ⟨h3, h4⟩ := loads_ended h2 hd (loaded_ended hd)
      refine ⟨?_, fun _ => ⟨[], os.length, ?_, .nil⟩⟩
      · rw [List.mem_cons]
        rintro (h | h)
        · cases h
        · rw [h3] at h
          have := List.eq_of_mem_replicate h
          cases this
      · rw [List.replicate_succ, ← h3]; rfl
    | again ha => exact absurd ha (ready_not_ended hp)
    | @parserFails w p1 _ ha hb hc =>
      exfalso
      rcases ha.compare hev with ⟨u, _, k⟩ | ⟨u, hu, k⟩
      · cases k with
        | nil => rw [hq] at hb; cases hb
        | cons a _ => rw [hb] at a; cases a
      · obtain ⟨_, rfl⟩ := hq.evs k
        rw [hq] at hb; cases hb
    | @composerFails pre' es v ts i w p1 err ha hb hc hd he hne =>
      exfalso
      obtain rfl := preOf_fun hpre ha hev hb
      obtain ⟨p2, k1, k2⟩ := hev.split
      obtain ⟨p2', k3, k4⟩ := hb.split
      obtain rfl := k1.fun k3
      have hpref : es :: w <+: ws.flatten ++ [ee] := by
        rcases k4.compare k2 with ⟨u, hu, _⟩ | ⟨u, hu, k5⟩
        · exact ⟨u, hu.symm⟩
        · obtain ⟨rfl, _⟩ := hq.evs k5
          exact ⟨[], by rw [hu]; simp⟩
      cases ws with
      | nil =>
        obtain ⟨u, hu⟩ := hpref
        injection hu with hu _
        subst hu
        rw [hee] at hc
        cases hc
      | cons w1 ws' =>
        obtain ⟨es1, body, ef, rfl, _, g2, g3, g4⟩ := hws w1 (.head _)
        rw [List.flatten_cons, List.cons_append, List.cons_append, List.cons_append, List.append_assoc, List.append_assoc, List.singleton_append] at hpref
        have hin := inside hne g2 (List.cons_prefix_cons.mp hpref).2
        obtain ⟨u, hu⟩ := hin
        rcases hd with hd | ⟨_, k, hk, hd⟩
        · rw [← hu] at g4
          rw [anchorFault_append g4] at hd
          cases hd
        · rw [hroom _ (.head _) k (by rw [← hu]; simp; omega)] at hd
          cases hd

end LibYaml
