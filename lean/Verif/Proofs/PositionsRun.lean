import Verif.Proofs.Positions
import Verif.Proofs.Tokens

/-! Sequences of calls; what the places of events say about their order. -/

namespace LibYaml

open Spec

variable {σ : Type}

theorem feeds_trans {S : TokSrc σ} {x y z : σ} {as bs : List Token} (h1 : Feeds S x as y) (h2 : Feeds S y bs z) :
    Feeds S x (as ++ bs) z := by
  induction h2 with
  | nil => simpa using h1
  | snoc _ hn ih => rw [← List.append_assoc]; exact .snoc ih hn

/-- The events among the results of a sequence of calls, with their positions. -/
def delivered : List POut → List Event
  | [] => []
  | .event e :: os => e :: delivered os
  | _ :: os => delivered os

/-- STREAM-END can only be the last token. -/
def EndsLast (ts : List Token) : Prop := ∀ a t b, ts = a ++ t :: b → t.data = .streamEnd → b = []

theorem endsLast_append {T R : List Token} (hT : ∀ t ∈ T, t.data ≠ .streamEnd) (hR : EndsLast R) : EndsLast (T ++ R) := by
  induction T with
  | nil => exact hR
  | cons u T ih =>
    intro a t b h ht
    cases a with
    | nil =>
      simp only [List.nil_append, List.cons_append, List.cons.injEq] at h
      exact absurd (h.1 ▸ ht) (hT u (by simp))
    | cons v a =>
      simp only [List.cons_append, List.cons.injEq] at h
      exact ih (fun t ht => hT t (by simp [ht])) a t b h.2 ht

theorem endsLast_short {ts : List Token} (h : ts.length ≤ 1) : EndsLast ts := by
  intro a t b hts _
  rw [hts] at h
  simp at h
  exact List.eq_nil_of_length_eq_zero (by omega)

theorem placed_any {c : List Coll} {st st' : Stage} {T : List Token} {e : Event} (h : Placed c st T none e st')
    (nx : Option Token) : Placed c st T nx e st' := by
  cases h with
  | streamStart ht => exact .streamStart ht
  | streamEnd hd ht => exact .streamEnd hd ht
  | documentMarker hd hr ht hf => exact .documentMarker hd hr ht hf
  | documentEndMarker ht => exact .documentEndMarker ht
  | «alias» hg ht => exact .alias hg ht
  | scalar hg hp ht hf => exact .scalar hg hp ht hf
  | properties hg hp hf hl => exact .properties hg hp hf hl
  | pair hc hg ht => exact .pair hc hg ht
  | close hg ht => exact .close hg ht
  | afterIndicator hc hg ht => exact .afterIndicator hc hg ht
  | pairKey hs ht => exact .pairKey hs ht

theorem lead_noEnd {c : List Coll} {st : Stage} {g : List Token} (h : Lead c st g) : ∀ t ∈ g, t.data ≠ .streamEnd := by
  intro t ht hd
  rcases h with rfl | ⟨u, rfl, h⟩
  · cases ht
  · simp at ht; subst ht
    rcases h with ⟨_, h⟩ | ⟨_, _, h⟩
    · rw [hd] at h; cases h
    · rw [hd] at h; cases h

theorem indicators_noEnd {c : List Coll} {st : Stage} {g : List Token} (h : Indicators c st g) : ∀ t ∈ g, t.data ≠ .streamEnd := by
  obtain ⟨a, b, rfl, ha, hb⟩ := h
  intro t ht hd
  rcases List.mem_append.mp ht with ht | ht
  · exact lead_noEnd ha t ht hd
  · rcases hb with rfl | ⟨u, rfl, h, _⟩
    · cases ht
    · simp at ht; subst ht; rw [hd] at h; cases h

theorem properties_noEnd {ps : List Token} (h : PropToks ps) : ∀ t ∈ ps, t.data ≠ .streamEnd := by
  intro t ht hd
  have := h.1 t ht
  rw [hd] at this; cases this

theorem noEnd_append {T R : List Token} (h1 : ∀ t ∈ T, t.data ≠ .streamEnd) (h2 : ∀ t ∈ R, t.data ≠ .streamEnd) :
    ∀ t ∈ T ++ R, t.data ≠ .streamEnd := by
  intro t ht
  rcases List.mem_append.mp ht with ht | ht
  · exact h1 t ht
  · exact h2 t ht

theorem noEnd_one {t : Token} (h : t.data ≠ .streamEnd) : ∀ u ∈ [t], u.data ≠ .streamEnd := by
  intro u hu; simp at hu; rw [hu]; exact h

theorem closing_noEnd {d : TokData} {e : EvData} (h : Closing d e) : d ≠ .streamEnd := by
  intro hd; subst hd; exact h

/-- Only the event STREAM-END takes the token STREAM-END, and as the last one. -/
theorem placed_noEnd {c : List Coll} {st st' : Stage} {T : List Token} {nx : Option Token} {e : Event} (h : Placed c st T nx e st') :
    EndsLast T ∧ (st' = .over ∨ ∀ t ∈ T, t.data ≠ .streamEnd) := by
  have of : (∀ t ∈ T, t.data ≠ .streamEnd) → EndsLast T ∧ (st' = .over ∨ ∀ t ∈ T, t.data ≠ .streamEnd) := fun hT =>
    ⟨by simpa using endsLast_append hT (endsLast_short (ts := []) (by simp)), .inr hT⟩
  cases h with
  | streamStart ht => exact of (noEnd_one (by rw [ht]; simp))
  | streamEnd hd ht =>
    exact ⟨endsLast_append (fun t ht hx => by rw [hd t ht] at hx; cases hx) (endsLast_short (by simp)), .inl rfl⟩
  | documentStart => exact of (by simp)
  | documentMarker hd hr ht hf =>
    refine of (noEnd_append (fun t ht hx => by rw [hd t ht] at hx; cases hx) (noEnd_append (fun t ht hx => ?_) (noEnd_one (by rw [ht]; simp))))
    have := hr t ht; rw [hx] at this; cases this
  | documentEnd => exact of (by simp)
  | documentEndMarker ht => exact of (noEnd_one (by rw [ht]; simp))
  | «alias» hg ht => exact of (noEnd_append (indicators_noEnd hg) (noEnd_one (by rw [ht]; simp)))
  | scalar hg hp ht hf =>
    exact of (noEnd_append (indicators_noEnd hg) (noEnd_append (properties_noEnd hp) (noEnd_one (by rw [ht]; simp))))
  | properties hg hp hf hl => exact of (noEnd_append (indicators_noEnd hg) (properties_noEnd hp))
  | collection hg hp ht hf => exact of (noEnd_append (indicators_noEnd hg) (properties_noEnd hp))
  | pair hc hg ht => exact of (noEnd_append (lead_noEnd hg) (noEnd_one (by rw [ht]; simp)))
  | close hg ht => exact of (noEnd_append (lead_noEnd hg) (noEnd_one (closing_noEnd ht)))
  | dedent => exact of (by simp)
  | pairEnd => exact of (by simp)
  | missing => exact of (by simp)
  | afterIndicator hc hg ht =>
    exact of (noEnd_append (lead_noEnd hg) (noEnd_one (fun hx => by rw [hx] at ht; cases ht)))
  | beforeNext hc hs hg => exact of (indicators_noEnd hg)
  | pairKey hs ht => exact of (noEnd_one (by rcases ht with ht | ht <;> rw [ht] <;> simp))

/-- Any number of calls. -/
theorem laid_run {S : TokSrc σ} {n : Int} {fuel k : Nat} {c : List Coll} {st : Stage} {p p' : Parser σ} {os : List POut}
    (hi : PosInv c st p.st) (h : parseN S n fuel k p = .ok (os, p')) :
    ∃ ts, Feeds S p.st.src ts p'.st.src ∧ Laid c st (p.st.avail.toList ++ ts) (delivered os) ∧
      EndsLast (p.st.avail.toList ++ ts) ∧ (st = .over → ts = []) := by
  induction k generalizing c st p os with
  | zero =>
    cases h
    refine ⟨[], .nil _, .nil, endsLast_short ?_, fun _ => rfl⟩
    cases p'.st.avail <;> simp
  | succ k ih =>
    unfold parseN at h
    split at h
    · cases h
    next o p1 hp =>
      split at h
      · cases h
      next os' p2 hn =>
        cases h
        unfold parse at hp
        split at hp
        · cases hp
          exact ih (os := os') hi hn
        next hcond =>
          split at hp
          next e s1 hm =>
            cases hp
            have hw := pk_stateMachine (S := S) (n := n) (c := c) (st := st) fuel hi
            obtain ⟨T, st', ⟨ts1, f1, e1⟩, hpl, ho, hinv⟩ := wp_ok (Q := PosPost S p.st.avail p.st.src c st) hw hm
            obtain ⟨ts2, f2, hl2, he2, hov⟩ := ih (p := { p with st := s1 }) hinv hn
            have hnot : st ≠ .over := by
              rintro rfl
              have : p.st.state = .done := hi.stage.1
              simp [this] at hcond
            have heq : p.st.avail.toList ++ (ts1 ++ ts2) = T ++ (s1.avail.toList ++ ts2) := by
              rw [← List.append_assoc, e1, List.append_assoc]
            refine ⟨ts1 ++ ts2, feeds_trans f1 f2, ?_, ?_, fun hx => absurd hx hnot⟩
            · rw [heq]
              refine .cons hnot ?_ ho hl2
              cases hav : s1.avail with
              | none => rw [hav] at hpl; exact placed_any hpl _
              | some u => rw [hav] at hpl; exact hpl
            · rw [heq]
              obtain ⟨k1, k2⟩ := placed_noEnd hpl
              rcases k2 with rfl | k2
              · rw [hov rfl, hinv.stage.2]; simpa using k1
              · exact endsLast_append k2 he2
          · cases hp
          · cases hp
          · cases hp
            exact ih (p := { p with error := some _ }) (os := os') hi hn

/-! ### Order -/

/-- Tokens that end after they start and follow one another. -/
def TidyToks (ts : List Token) : Prop := (∀ t ∈ ts, t.start.index ≤ t.stop.index) ∧ InOrder ts

/-- Can the token open a collection? -/
def CanOpen (t : Token) : Prop := opensColl t.data = true ∨ t.data = .blockEntry

/-- The ways in which an event lies among its tokens `T` and those that follow, `R`. -/
inductive Spot (T R : List Token) (e : Event) (st' : Stage) : Prop
  /-- On tokens of its own, the last ones it takes. -/
  | own (g own : List Token) (f l : Token) : T = g ++ own → own.head? = some f → own.getLast? = some l → ¬ CanOpen f →
      e.start = f.start → e.stop = l.stop → st' ≠ .opening → Spot T R e st'
  /-- On its properties and the next token. -/
  | opens (g ps : List Token) (f t : Token) (R' : List Token) : T = g ++ ps → R = t :: R' → (ps ++ [t]).head? = some f →
      (ps ≠ [] → ¬ CanOpen f) → e.start = f.start → e.stop = t.stop → st' = .opening → Spot T R e st'
  /-- Before the next token. -/
  | next (t : Token) (R' : List Token) : R = t :: R' → e.start = t.start → e.stop = t.start → st' ≠ .opening → Spot T R e st'
  /-- After the last token taken. -/
  | after (g : List Token) (t : Token) : T = g ++ [t] → e.start = t.stop → e.stop = t.stop → st' ≠ .opening → Spot T R e st'
  /-- Before its only token. -/
  | before (t : Token) : T = [t] → ¬ CanOpen t → e.start = t.start → e.stop = t.start → st' ≠ .opening → Spot T R e st'

theorem head_mem {t : Token} {l : List Token} (h : l.head? = some t) : t ∈ l := by
  cases l with
  | nil => cases h
  | cons a l => cases h; simp

theorem property_noOpen {ps : List Token} {f : Token} (h : PropToks ps) (hf : ps.head? = some f) : ¬ CanOpen f := by
  have := h.1 f (head_mem hf)
  intro ho
  unfold CanOpen at ho
  cases hd : f.data <;> rw [hd] at this ho <;> first | cases this; done | (rcases ho with ho | ho <;> cases ho)

theorem head_append_noOpen {ps : List Token} {f t : Token} (h : PropToks ps) (hf : (ps ++ [t]).head? = some f)
    (ht : ¬ CanOpen t) : ¬ CanOpen f := by
  cases ps with
  | nil => simp at hf; rw [← hf]; exact ht
  | cons u ps => exact property_noOpen h hf

theorem noOpen_of {t : Token} (h1 : opensColl t.data = false) (h2 : t.data ≠ .blockEntry) : ¬ CanOpen t := by
  rintro (h | h)
  · rw [h1] at h; cases h
  · exact h2 h

theorem head_some {R : List Token} {t : Token} (h : R.head? = some t) : ∃ R', R = t :: R' := by
  cases R with
  | nil => cases h
  | cons a R => cases h; exact ⟨R, rfl⟩

theorem placed_spot {c : List Coll} {st st' : Stage} {T R : List Token} {nx : Option Token} {e : Event}
    (h : Placed c st T nx e st') (hn : nx = R.head?) : Spot T R e st' := by
  have nextOf : ∀ {u : Token}, some u = R.head? → ∃ R', R = u :: R' := fun hu => head_some hu.symm
  cases h with
  | streamStart ht => exact .before _ rfl (noOpen_of (by rw [ht]; rfl) (by rw [ht]; simp)) rfl rfl (by simp)
  | streamEnd hd ht => exact .own _ _ _ _ rfl rfl rfl (noOpen_of (by rw [ht]; rfl) (by rw [ht]; simp)) rfl rfl (by simp)
  | documentStart => obtain ⟨R', hR⟩ := nextOf hn; exact .next _ _ hR rfl rfl (by simp)
  | documentMarker hd hr ht hf =>
    rename_i ds dirs t f v tags
    refine .own _ _ f t rfl hf (by simp) ?_ rfl rfl (by simp)
    cases dirs with
    | nil => simp at hf; rw [← hf]; exact noOpen_of (by rw [ht]; rfl) (by rw [ht]; simp)
    | cons u dirs =>
      simp at hf; subst hf
      have := hr u (by simp)
      cases hd : u.data <;> rw [hd] at this <;> first | (cases this; done) | exact noOpen_of (by rw [hd]; rfl) (by rw [hd]; simp)
  | documentEnd => obtain ⟨R', hR⟩ := nextOf hn; exact .next _ _ hR rfl rfl (by simp)
  | documentEndMarker ht =>
    exact .own [] _ _ _ rfl rfl rfl (noOpen_of (by rw [ht]; rfl) (by rw [ht]; simp)) rfl rfl (by simp)
  | «alias» hg ht => exact .own _ _ _ _ rfl rfl rfl (noOpen_of (by rw [ht]; rfl) (by rw [ht]; simp)) rfl rfl (by simp)
  | scalar hg hp ht hf =>
    exact .own _ _ _ _ rfl hf (by simp) (head_append_noOpen hp hf (noOpen_of (by rw [ht]; rfl) (by rw [ht]; simp))) rfl rfl (by simp)
  | properties hg hp hf hl => exact .own _ _ _ _ rfl hf hl (property_noOpen hp hf) rfl rfl (by simp)
  | collection hg hp ht hf =>
    rename_i g ps t f d
    obtain ⟨R', hR⟩ := nextOf hn
    refine .opens g ps f t R' rfl hR hf ?_ rfl rfl rfl
    intro hne
    cases ps with
    | nil => exact absurd rfl hne
    | cons u ps => exact property_noOpen hp hf
  | pair hc hg ht => exact .own _ _ _ _ rfl rfl rfl (noOpen_of (by rw [ht]; rfl) (by rw [ht]; simp)) rfl rfl (by simp)
  | close hg ht =>
    rename_i g t d
    refine .own _ _ _ _ rfl rfl rfl ?_ rfl rfl (by simp)
    intro ho
    unfold CanOpen at ho
    cases hd : t.data <;> rw [hd] at ht ho <;> first | (exact ht.elim) | (rcases ho with ho | ho <;> cases ho)
  | dedent => obtain ⟨R', hR⟩ := nextOf hn; exact .next _ _ hR rfl rfl (by simp)
  | pairEnd => obtain ⟨R', hR⟩ := nextOf hn; exact .next _ _ hR rfl rfl (by simp)
  | missing => obtain ⟨R', hR⟩ := nextOf hn; exact .next _ _ hR rfl rfl (by simp)
  | afterIndicator hc hg ht => exact .after _ _ rfl rfl rfl (by simp)
  | beforeNext hc hs hg => obtain ⟨R', hR⟩ := nextOf hn; exact .next _ _ hR rfl rfl (by simp)
  | pairKey hs ht => exact .after [] _ rfl rfl rfl (by simp)

theorem last_mem {t : Token} {l : List Token} (h : l.getLast? = some t) : ∃ l', l = l' ++ [t] := by
  refine ⟨l.dropLast, ?_⟩
  have hne : l ≠ [] := by rintro rfl; cases h
  rw [List.getLast?_eq_some_getLast hne] at h
  cases h
  exact (List.dropLast_concat_getLast hne).symm

/-- A lower bound for the events to come: after the start of a collection the end of its first token counts. -/
def Below (b : Nat) (st : Stage) (ts : List Token) : Prop :=
  if st = .opening then ∃ t R, ts = t :: R ∧ b ≤ t.stop.index else ∀ t ∈ ts, b ≤ t.start.index

theorem tidy_left {A B : List Token} (h : TidyToks (A ++ B)) : TidyToks A :=
  ⟨fun t ht => h.1 t (by simp [ht]), (List.pairwise_append.mp h.2).1⟩
theorem tidy_right {A B : List Token} (h : TidyToks (A ++ B)) : TidyToks B :=
  ⟨fun t ht => h.1 t (by simp [ht]), (List.pairwise_append.mp h.2).2.1⟩
theorem tidy_cross {A B : List Token} (h : TidyToks (A ++ B)) {x y : Token} (hx : x ∈ A) (hy : y ∈ B) : x.stop.index ≤ y.start.index :=
  (List.pairwise_append.mp h.2).2.2 x hx y hy

/-- In a tidy list the first token starts before the last one ends. -/
theorem tidy_span {l : List Token} {f t : Token} (h : TidyToks l) (hf : l.head? = some f) (ht : t ∈ l) :
    f.start.index ≤ t.start.index ∧ f.start.index ≤ t.stop.index := by
  cases l with
  | nil => cases hf
  | cons a l =>
    cases hf
    have hs := h.1 f (by simp)
    have hst := h.1 t ht
    rcases List.mem_cons.mp ht with rfl | ht
    · exact ⟨Nat.le_refl _, hs⟩
    · have := (List.pairwise_cons.mp h.2).1 t ht
      omega

theorem spot_order {T R : List Token} {e : Event} {st st' : Stage} (h : Spot T R e st') (ht : TidyToks (T ++ R))
    (ho : OpensFirst st T) :
    e.start.index ≤ e.stop.index ∧ Below e.stop.index st' R ∧ ∀ b, Below b st (T ++ R) → b ≤ e.start.index := by
  -- the event begins at a token `f` after `A`
  have low : ∀ (A B : List Token) (f : Token), T ++ R = A ++ f :: B → (A = [] → T = [] ∨ ¬ CanOpen f) → e.start = f.start →
      ∀ b, Below b st (T ++ R) → b ≤ e.start.index := by
    intro A B f hTR hA he b hb
    rw [he]
    unfold Below at hb
    split at hb
    next hst =>
      obtain ⟨u, T', rfl, hu⟩ := ho hst
      obtain ⟨v, R', hv, hle⟩ := hb
      rw [hTR] at ht
      cases A with
      | nil =>
        rcases hA rfl with h0 | h0
        · cases h0
        · simp only [List.cons_append, List.nil_append, List.cons.injEq] at hTR
          rw [← hTR.1] at h0
          exact absurd hu h0
      | cons w A =>
        rw [hTR] at hv
        simp only [List.cons_append, List.cons.injEq] at hv
        have := tidy_cross ht (x := w) (y := f) (by simp) (by simp)
        rw [hv.1] at this
        omega
    next => exact hb f (by rw [hTR]; simp)
  cases h with
  | own g own f l hT hf hl hno h1 h2 h3 =>
    subst hT
    obtain ⟨own', rfl⟩ := last_mem hl
    have hown : TidyToks (own' ++ [l]) := tidy_right (tidy_left ht)
    refine ⟨?_, ?_, ?_⟩
    · rw [h1, h2]; exact (tidy_span hown hf (by simp)).2
    · unfold Below
      rw [if_neg h3, h2]
      intro r hr
      exact tidy_cross ht (by simp) hr
    · obtain ⟨o', ho'⟩ := head_some hf
      refine low g (o' ++ R) f ?_ (fun _ => .inr hno) h1
      rw [ho']; simp
  | opens g ps f t R' hT hR hf hno h1 h2 h3 =>
    subst hT hR h3
    have hps : TidyToks (ps ++ t :: R') := tidy_right (A := g) (by rw [← List.append_assoc]; exact ht)
    have hps' : TidyToks (ps ++ [t]) := tidy_left (B := R') (by simpa using hps)
    refine ⟨?_, ?_, ?_⟩
    · rw [h1, h2]; exact (tidy_span hps' hf (by simp)).2
    · unfold Below
      rw [if_pos rfl, h2]
      exact ⟨t, R', rfl, Nat.le_refl _⟩
    · obtain ⟨o', ho'⟩ := head_some hf
      refine low g (o' ++ R') f ?_ ?_ h1
      · have : (ps ++ [t]) ++ R' = f :: (o' ++ R') := by rw [ho']; rfl
        rw [List.append_assoc, ← this]; simp
      · intro hg
        subst hg
        by_cases hps0 : ps = []
        · left; simp [hps0]
        · exact .inr (hno hps0)
  | next t R' hR h1 h2 h3 =>
    subst hR
    have hR : TidyToks (t :: R') := tidy_right ht
    refine ⟨by rw [h1, h2]; exact Nat.le_refl _, ?_, ?_⟩
    · unfold Below
      rw [if_neg h3, h2]
      intro r hr
      exact (tidy_span hR rfl hr).1
    · by_cases hT : T = []
      · exact low T R' t rfl (fun _ => .inl hT) h1
      · exact low T R' t rfl (fun h => absurd h hT) h1
  | after g t hT h1 h2 h3 =>
    subst hT
    refine ⟨by rw [h1, h2]; exact Nat.le_refl _, ?_, ?_⟩
    · unfold Below
      rw [if_neg h3, h2]
      intro r hr
      exact tidy_cross ht (by simp) hr
    · intro b hb
      rw [h1]
      have hself := ht.1 t (by simp)
      unfold Below at hb
      split at hb
      next hst =>
        obtain ⟨v, R', hv, hle⟩ := hb
        cases g with
        | nil => simp only [List.nil_append, List.cons_append, List.cons.injEq] at hv; rw [hv.1]; exact hle
        | cons w g =>
          simp only [List.cons_append, List.cons.injEq] at hv
          have := tidy_cross (tidy_left ht) (x := w) (y := t) (by simp) (by simp)
          rw [hv.1] at this
          omega
      next =>
        have := hb t (by simp)
        omega
  | before t hT hno h1 h2 h3 =>
    subst hT
    have hself := ht.1 t (by simp)
    refine ⟨by rw [h1, h2]; exact Nat.le_refl _, ?_, low [] R t rfl (fun _ => .inr hno) h1⟩
    unfold Below
    rw [if_neg h3, h2]
    intro r hr
    have := tidy_cross ht (x := t) (by simp) hr
    omega

/-- Events that lie on tidy tokens follow one another. -/
theorem laid_inLine {c : List Coll} {st : Stage} {ts : List Token} {es : List Event} (h : Laid c st ts es) (ht : TidyToks ts) :
    InLine es ∧ ∀ b, Below b st ts → ∀ e ∈ es, b ≤ e.start.index := by
  induction h with
  | nil => exact ⟨⟨by simp, by simp⟩, by simp⟩
  | @cons c st T rest e st' es _ hp ho _ ih =>
    obtain ⟨⟨i1, i2⟩, i3⟩ := ih (tidy_right ht)
    obtain ⟨h1, h2, h3⟩ := spot_order (placed_spot (R := rest) hp rfl) ht ho
    refine ⟨⟨?_, List.pairwise_cons.mpr ⟨i3 _ h2, i2⟩⟩, ?_⟩
    · intro x hx
      rcases List.mem_cons.mp hx with rfl | hx
      · exact h1
      · exact i1 x hx
    · intro b hb x hx
      rcases List.mem_cons.mp hx with rfl | hx
      · exact h3 b hb
      · have := i3 _ h2 x hx
        have := h3 b hb
        omega

/-- A mark of one of the tokens. -/
def MarkOf (ts : List Token) (m : Mark) : Prop := ∃ t ∈ ts, m = t.start ∨ m = t.stop

theorem spot_marks {T R : List Token} {e : Event} {st' : Stage} (h : Spot T R e st') :
    MarkOf (T ++ R) e.start ∧ MarkOf (T ++ R) e.stop := by
  cases h with
  | own g own f l hT hf hl hno h1 h2 h3 =>
    subst hT
    have := head_mem hf
    obtain ⟨o, rfl⟩ := last_mem hl
    exact ⟨⟨f, by simp at this ⊢; rcases this with h | h <;> simp [h], .inl h1⟩, ⟨l, by simp, .inr h2⟩⟩
  | opens g ps f t R' hT hR hf hno h1 h2 h3 =>
    subst hT hR
    have := head_mem hf
    exact ⟨⟨f, by simp at this ⊢; rcases this with h | h <;> simp [h], .inl h1⟩, ⟨t, by simp, .inr h2⟩⟩
  | next t R' hR h1 h2 h3 => subst hR; exact ⟨⟨t, by simp, .inl h1⟩, ⟨t, by simp, .inl h2⟩⟩
  | after g t hT h1 h2 h3 => subst hT; exact ⟨⟨t, by simp, .inr h1⟩, ⟨t, by simp, .inr h2⟩⟩
  | before t hT hno h1 h2 h3 => subst hT; exact ⟨⟨t, by simp, .inl h1⟩, ⟨t, by simp, .inl h2⟩⟩

theorem laid_marks {c : List Coll} {st : Stage} {ts : List Token} {es : List Event} (h : Laid c st ts es) :
    ∀ e ∈ es, MarkOf ts e.start ∧ MarkOf ts e.stop := by
  induction h with
  | nil => simp
  | @cons c st T rest e st' es _ hp _ _ ih =>
    intro x hx
    rcases List.mem_cons.mp hx with rfl | hx
    · exact spot_marks (placed_spot (R := rest) hp rfl)
    · obtain ⟨⟨t, h1, h2⟩, ⟨u, h3, h4⟩⟩ := ih x hx
      exact ⟨⟨t, by simp [h1], h2⟩, ⟨u, by simp [h3], h4⟩⟩

end LibYaml
