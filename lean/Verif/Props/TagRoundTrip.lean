import Verif.Proofs.TagWrite
import Verif.Proofs.EmitterRun
import Verif.Props.RoundTrip
import Verif.Spec.Tags

/-!
# C47: tags survive emission and scanning

`ReadsTok flow m cs d fin`: where the remaining characters are `cs`, `yaml_parser_fetch_next_token` recognises the kind of token and the
scanner function for it returns a token with data `d` and leaves the characters `fin`.
-/

namespace LibYaml

open Spec

/-- The scanner function called for tags, anchors, aliases and directives. -/
def scanNamed (f : Nat) (flow : Bool) : Kind → Lex Token
  | .tag => scanTag f flow
  | .anchor a => scanAnchor f a
  | .directive => scanDirective f
  | _ => fun _ => .fail .ub

/-- The scanner reads a token with the given data from `cs` and leaves `fin`. -/
def ReadsTok (flow : Bool) (m : Mark) (cs : Text) (d : TokData) (fin : Text) : Prop :=
  ∀ T i f, At T none m i → Has 4 i → i.cs = cs → cs.length < f →
    ∃ kind tok m' i', (dispatch flow m).run i = .ok ((kind, m), i) ∧ (scanNamed f flow kind m).run i = .ok ((tok, m'), i') ∧
      tok.data = d ∧ i'.cs = fin ∧ At T none m' i'

/-- Characters that do not need a look at the column. -/
theorem lw_dispatch_char {flow : Bool} {m : Mark} {c : Nat} {r : Text} (hz : (c :: r).getLast? = some 0) (h0 : c ≠ 0) (h1 : c ≠ 37) (h2 : c ≠ 45)
    (h3 : c ≠ 46) {Q : Kind → Mark → Text → Prop} (hQ : lw (dispatchChar flow c) Q m (c :: r)) : lw (dispatch flow) Q m (c :: r) := by
  unfold dispatch
  rw [lw_bind, lw_peek0, lw_bind, lw_get, lw_ite, if_neg (by simpa [isZ] using h0), lw_ite, if_neg (by rintro ⟨_, h⟩; exact h1 h), lw_bind]
  refine lw_docMark_false (by decide) hz (by simp [List.isPrefixOf, Ne.symm h2]) ?_
  rw [lw_ite, if_neg (by decide), lw_bind]
  refine lw_docMark_false (by decide) hz (by simp [List.isPrefixOf, Ne.symm h3]) ?_
  rw [lw_ite, if_neg (by decide)]
  exact hQ

/-- From total correctness on characters to `ReadsTok`. -/
theorem readsTok_of {flow : Bool} {m : Mark} {cs fin : Text} {d : TokData} {k : Kind} (hk : k = .tag ∨ (∃ a, k = .anchor a) ∨ k = .directive)
    (hd : cs.getLast? = some 0 → lw (dispatch flow) (fun k' m' cs' => k' = k ∧ m' = m ∧ cs' = cs) m cs)
    (hn : ∃ c r, cs = c :: r ∧ isBreak c = false)
    (hs : ∀ f, cs.length < f → lw (scanNamed f flow k) (fun t _ cs' => t.data = d ∧ cs' = fin) m cs) : ReadsTok flow m cs d fin := by
  intro T i f ha hh hcs hf
  have hz := ha.ends rfl
  rw [hcs] at hz
  have hdr := run_of_lw (p := dispatch flow) (R := fun _ i' => i' = i ∧ KindOk flow m i.cs k) ha.bad
    (by
      obtain ⟨c, r, e, hc⟩ := hn
      have hp := pw_dispatch (flow := flow) (E := Fail.reported) (Q := fun k' _ i' => i' = i ∧ KindOk flow m i.cs k') ha hh
        (fun c' r' h => by rw [hcs, e] at h; cases h; exact hc) fun k' hk' => ⟨rfl, hk'⟩
      have hl := hd hz
      rw [← hcs] at hl
      have hr := run_of_lw (p := dispatch flow) (R := fun _ _ => True) ha.bad (by
        unfold pw at hp ⊢
        cases hx : (dispatch flow m).run i with
        | error e' => rw [hx] at hp; exact hp
        | ok x => trivial) hl
      obtain ⟨k', m', i', e1, ⟨e2, _, _⟩, _⟩ := hr
      unfold pw at hp ⊢
      rw [e1] at hp ⊢
      subst e2
      exact hp)
    (by rw [hcs]; exact hd hz)
  obtain ⟨k', m1, i1, d1, ⟨hk', hm1, _⟩, hi1, hko⟩ := hdr
  rw [hk', hm1, hi1] at d1
  have hsafe : pw (scanNamed f flow k) (fun _ m' i' => At T none m' i') Fail.reported m i := by
    rcases hk with rfl | ⟨a, rfl⟩ | rfl
    · obtain ⟨r, hr⟩ := hko
      exact pw_reported (safe_scanTag badOk_none ha hr (by rw [hcs]; exact hf) fun _ _ _ h _ _ _ => h)
    · obtain ⟨c, r, hr, hc⟩ := hko
      exact pw_reported (safe_scanAnchor badOk_none ha (hh.mono (by omega)) hr hc (by rw [hcs]; exact hf) fun _ _ _ h _ _ _ => h)
    · obtain ⟨r, hr⟩ := hko
      exact pw_reported (safe_scanDirective badOk_none ha (hh.mono (by omega)) hr (by rw [hcs]; exact hf) fun _ _ _ h _ _ _ => h)
  have hl := hs f hf
  rw [← hcs] at hl
  obtain ⟨t, m2, i2, s1, ⟨s2, s3⟩, s4⟩ := run_of_lw ha.bad hsafe hl
  exact ⟨k, t, m2, i2, d1, s1, s2, s3, s4⟩

theorem handleOk_iff {h : Text} : Handle h ↔ HandleOk h := by
  unfold Handle HandleOk
  constructor
  · rintro (h | ⟨w, h1, h2⟩)
    · exact .inl h
    · exact .inr ⟨w, fun c hc => (isAlpha_iff c).mpr (h2 c hc), h1⟩
  · rintro (h | ⟨w, h1, h2⟩)
    · exact .inl h
    · exact .inr ⟨w, h2, fun c hc => (isAlpha_iff c).mp (h1 c hc)⟩

/-- The directives known in a document that declares `ts`: these, then the predeclared ones whose handle is not declared. -/
def knownTags (ts : List TagDir) : List TagDir := ts ++ predeclared.filter fun d => !(ts.any fun t => t.handle == d.handle)

/-- The emitter is in a document that declares the directives `ts`. -/
structure EmitsIn (ts : List TagDir) (s : Emitter) : Prop where
  known : s.tags = knownTags ts
  good : ∀ d ∈ ts, Handle d.handle ∧ d.pfx ≠ []
  once : (ts.map TagDir.handle).Nodup

theorem ewp_true {α : Type} {m : EM α} {Q : α → Emitter → Prop} {s : Emitter} {a : α} (h : ewp m Q (fun _ _ => True) s) (hv : (m s).val = .ok a) :
    Q a (m s).st := by
  unfold ewp at h
  rw [hv] at h
  exact h

theorem ewp_any {α : Type} {m : EM α} {s : Emitter} : ewp m (fun _ _ => True) (fun _ _ => True) s := by
  unfold ewp
  split <;> trivial

theorem ewp_addDefaults {Q : Unit → Emitter → Prop} {E : EFail → Emitter → Prop} {ds : List TagDir} :
    ∀ {s : Emitter}, (ds.map TagDir.handle).Nodup → Q () { s with tags := s.tags ++ ds.filter fun d => !(s.tags.any fun t => t.handle == d.handle) } →
      ewp (addDefaults ds) Q E s := by
  induction ds with
  | nil =>
    intro s _ hQ
    show Q () s
    simpa using hQ
  | cons d ds ih =>
    intro s hn hQ
    unfold addDefaults appendTagDirective
    rw [ewp_bind, ewp_bind, ewp_getE, ewp_ite]
    rw [List.map_cons, List.nodup_cons] at hn
    by_cases h : (s.tags.any fun t => t.handle == d.handle) = true
    · rw [if_pos h, ewp_ite, if_pos rfl, ewp_pure]
      refine ih hn.2 ?_
      rw [List.filter_cons_of_neg (by rw [h]; decide)] at hQ
      exact hQ
    · rw [if_neg h, ewp_bind, ewp_opE, ewp_modE]
      refine ih hn.2 ?_
      rw [List.filter_cons_of_pos (by simpa using h)] at hQ
      have e : (ds.filter fun d' => !((s.tags ++ [d]).any fun t => t.handle == d'.handle)) =
          ds.filter fun d' => !(s.tags.any fun t => t.handle == d'.handle) := by
        refine List.filter_congr fun x hx => ?_
        have : (d.handle == x.handle) = false := by
          refine beq_eq_false_iff_ne.mpr fun hc => hn.1 ?_
          rw [hc]
          exact List.mem_map_of_mem hx
        simp [this]
      show Q () { s with tags := (s.tags ++ [d]) ++ ds.filter fun d' => !((s.tags ++ [d]).any fun t => t.handle == d'.handle) }
      rw [e, List.append_assoc]
      exact hQ

/-- A document start that the emitter accepts leaves it in the document with these directives. -/
theorem C47_document_start {s : Emitter} {v : Option Version} {ts : List TagDir} {implicit first : Bool} (h0 : s.tags = [])
    (hok : (emitDocumentStartEvent v ts implicit first s).val = .ok ()) : EmitsIn ts (emitDocumentStartEvent v ts implicit first s).st := by
  refine ewp_true (m := emitDocumentStartEvent v ts implicit first) (Q := fun _ t => EmitsIn ts t) ?_ hok
  unfold emitDocumentStartEvent
  rw [ewp_bind]
  refine ewp_someE (fun _ => ?_) fun x _ => ewp_analyzeVersion (fun _ => ?_) (fun _ _ => trivial)
  all_goals
    rw [ewp_bind]
    refine ewp_appendTags (fun hg => ?_) (by rw [h0]; exact List.nodup_nil) (fun _ _ _ => trivial)
    rw [h0, List.nil_append] at hg
    rw [ewp_bind]
    refine ewp_addDefaults (by decide) ?_
    rw [ewp_bind, ewp_getE, ewp_bind]
    refine (Quiet.whenE ((quiet_writeIndicator _ _ _ _).bind fun _ => quiet_writeIndent)).ewp fun _ t1 ht1 => ?_
    rw [ewp_bind, ewp_modE, ewp_bind]
    refine (quiet_someE quiet_writeVersion).ewp fun _ t2 ht2 => ?_
    rw [ewp_bind]
    refine (quiet_writeTags _).ewp fun _ t3 ht3 => ?_
    rw [ewp_bind, ewp_getE, ewp_bind]
    refine (Quiet.whenE (quiet_writeIndent.bind fun _ => (quiet_writeIndicator _ _ _ _).bind fun _ => Quiet.getE.bind fun _ =>
      Quiet.whenE quiet_writeIndent)).ewp fun _ t4 ht4 => ?_
    show ewp (setStateE .documentContent >>= fun _ => _) _ _ _
    rw [ewp_bind]
    show EmitsIn ts _
    refine ⟨?_, hg.1, hg.2⟩
    show t4.tags = _
    rw [ht4, ht3, ht2]
    show t1.tags = _
    rw [ht1]
    show (s.tags ++ ts) ++ _ = _
    rw [h0, List.nil_append]
    rfl

/-- The tag written with a known directive means what it should. -/
theorem expand_known {ts : List TagDir} (hn : (ts.map TagDir.handle).Nodup) {d : TagDir} (hd : d ∈ knownTags ts) (hne : d.handle ≠ []) (x : Text) :
    expand ts d.handle x = some (d.pfx ++ x) := by
  unfold expand
  rw [if_neg hne]
  have hf : (ts ++ predeclared).find? (fun e => e.handle == d.handle) = some d := by
    rcases List.mem_append.mp hd with h | h
    · rw [List.find?_append]
      have : ts.find? (fun e => e.handle == d.handle) = some d := by
        clear hd
        induction ts with
        | nil => cases h
        | cons a ts ih =>
          rw [List.map_cons, List.nodup_cons] at hn
          rcases List.mem_cons.mp h with rfl | h'
          · rw [List.find?_cons_of_pos (by simp)]
          · rw [List.find?_cons_of_neg, ih hn.2 h']
            intro hc
            have : a.handle = d.handle := by simpa using hc
            exact hn.1 (by rw [this]; exact List.mem_map_of_mem h')
      rw [this]; rfl
    · rw [List.mem_filter] at h
      rw [List.find?_append]
      have h1 : ts.find? (fun e => e.handle == d.handle) = none := by
        rw [List.find?_eq_none]
        intro a ha hc
        have := h.2
        simp only [Bool.not_eq_true', List.any_eq_false] at this
        exact this a ha hc
      rw [h1, Option.none_or]
      have hp := h.1
      unfold predeclared at hp ⊢
      simp only [List.mem_cons, List.not_mem_nil, or_false] at hp
      rcases hp with rfl | rfl <;> rfl
  rw [hf]
  rfl

theorem known_handle {ts : List TagDir} {s : Emitter} (h : EmitsIn ts s) {d : TagDir} (hd : d ∈ s.tags) : Handle d.handle := by
  rw [h.known] at hd
  rcases List.mem_append.mp hd with hd | hd
  · exact (h.good d hd).1
  · have hp := (List.mem_filter.mp hd).1
    unfold predeclared at hp
    simp only [List.mem_cons, List.not_mem_nil, or_false] at hp
    rcases hp with rfl | rfl
    · exact .inl rfl
    · exact .inr ⟨[], rfl, by simp⟩

theorem fits_split {d : TagDir} {t : Text} (h : d.fits t = true) : t = d.pfx ++ t.drop d.pfx.length ∧ t.drop d.pfx.length ≠ [] := by
  unfold TagDir.fits at h
  rw [Bool.and_eq_true, decide_eq_true_eq] at h
  obtain ⟨h1, h2⟩ := h
  rw [List.isPrefixOf_iff_prefix] at h2
  obtain ⟨r, rfl⟩ := h2
  refine ⟨by rw [List.drop_left], ?_⟩
  rw [List.drop_left]
  rintro rfl
  rw [List.append_nil] at h1
  omega

/-- A tag character of the scanner that is not a flow indicator. -/
theorem reads_tag {flow : Bool} {m : Mark} {h : Option Text} {v rest : Text} (hh : ∀ x, h = some x → HandleOk x ∧ ∀ c ∈ v, ¬ flowInd c)
    (hv : ∀ c ∈ v, Storable c ∧ c ≠ 0) (hne : v ≠ []) (hr : TagEnd flow rest) :
    ReadsTok flow m (tagForm h v ++ rest) (.tag (formHandle h) v) rest := by
  have hform : ∃ t, tagForm h v ++ rest = 33 :: t := by
    cases h with
    | none => exact ⟨_, rfl⟩
    | some x =>
      obtain ⟨t, ht⟩ := (hh x rfl).1.head
      unfold tagForm
      rw [ht]
      exact ⟨_, rfl⟩
  obtain ⟨t, ht⟩ := hform
  refine readsTok_of (k := .tag) (.inl rfl) (fun hz => ?_) ⟨33, t, ht, by decide⟩ (fun f hf => ?_)
  · rw [ht] at hz ⊢
    refine lw_dispatch_char hz (by decide) (by decide) (by decide) (by decide) ?_
    exact ⟨rfl, rfl, rfl⟩
  · refine lw_scanTag hh hv hne hr ?_ ⟨rfl, rfl⟩
    rw [List.length_append] at hf
    omega

/-- **C47 (tags round-trip), partial.** In a document with the directives `ts`, a tag of Unicode characters other than NUL is written —
after the space that separates it from what stands before it — such that, whatever follows the tag that may follow one, the scanner
reads it as a handle and a suffix which denote the tag in this document. What is missing: a suffix after a handle must not contain `,`,
`[` or `]`; for such tags the claim fails (`C47_violated`). -/
theorem C47_tag_round_trip_partial {ts : List TagDir} {s : Emitter} (hd : EmitsIn ts s) (tag : Text) (hne : tag ≠ [])
    (ht : ∀ c ∈ tag, Storable c ∧ c ≠ 0)
    (hx : ∀ d, s.tags.find? (fun d => d.fits tag) = some d → ∀ c ∈ tag.drop d.pfx.length, ¬ (c = c! ',' ∨ c = c! '[' ∨ c = c! ']'))
    (h0 : s.tagHandle = none) :
    (analyzeTag tag s).val = .ok () ∧ (processTag (analyzeTag tag s).st).val = .ok () ∧
    ∃ body handle suffix, (analyzeTag tag s).text ++ (processTag (analyzeTag tag s).st).text = lead s ++ body ∧
      expand ts handle suffix = some tag ∧
      ∀ flow m rest, TagEnd flow rest → ReadsTok flow m (body ++ rest) (.tag handle suffix) rest := by
  have hsplit : tw (analyzeTag tag) (fun _ t s' => t = [] ∧ ∃ x, s'.tagSuffix = some x ∧ lead s' = lead s ∧ x ≠ [] ∧
      (∀ y, s'.tagHandle = some y → HandleOk y ∧ ∀ c ∈ x, ¬ flowInd c) ∧ (∀ c ∈ x, Storable c ∧ c ≠ 0) ∧
      expand ts (formHandle s'.tagHandle) x = some tag) s := by
    unfold analyzeTag
    rw [tw_ite, if_neg (by simpa using hne), tw_bind, tw_getE]
    cases hf : s.tags.find? fun d => d.fits tag with
    | none =>
      simp only []
      rw [tw_modE]
      refine ⟨rfl, tag, rfl, rfl, hne, fun y hy => ?_, ht, ?_⟩
      · rw [h0] at hy; cases hy
      · show expand ts (formHandle s.tagHandle) tag = _
        rw [h0]
        rfl
    | some d =>
      simp only []
      rw [tw_modE]
      obtain ⟨e1, e2⟩ := fits_split (d := d) (t := tag) (List.find?_some (p := fun d : TagDir => d.fits tag) hf)
      have hm := List.mem_of_find?_eq_some hf
      have hh := known_handle hd hm
      refine ⟨rfl, _, rfl, rfl, e2, fun y hy => ?_, fun c hc => ht c (List.mem_of_mem_drop hc), ?_⟩
      · cases hy
        exact ⟨handleOk_iff.mp hh, hx d hf⟩
      · show expand ts d.handle _ = _
        rw [expand_known hd.once (by rw [← hd.known]; exact hm), ← e1]
        obtain ⟨t, ht⟩ := (handleOk_iff.mp hh).head
        rw [ht]
        exact fun h => by cases h
  obtain ⟨_, h1, h2, x, h3, h4, h5, h6, h7, h8⟩ := tw_out hsplit
  have hp : tw processTag (fun _ t _ => t = lead s ++ tagForm (analyzeTag tag s).st.tagHandle x) (analyzeTag tag s).st := by
    rw [tw_processTag h3, h4]
  obtain ⟨_, h9, h10⟩ := tw_out hp
  refine ⟨h1, h9, tagForm (analyzeTag tag s).st.tagHandle x, formHandle (analyzeTag tag s).st.tagHandle, x, ?_, h8, fun flow m rest hr => ?_⟩
  · rw [h2, h10]; rfl
  · exact reads_tag h6 h7 h5 hr

/-- **C47 (directives round-trip).** A `%TAG` directive that the emitter accepts is written and scanned back as the same directive,
at the beginning of a line. -/
theorem C47_directive_round_trip {s : Emitter} {lb : Break} (hw : s.whitespace = true) (hl : s.lineBreak = some lb) (hi : s.indentCol = 0) (d : TagDir) (hd : Handle d.handle) (hp : d.pfx ≠ []) (ht : ∀ c ∈ d.pfx, Storable c ∧ c ≠ 0) :
    (writeTags [d] s).val = .ok () ∧
    ∃ body, (writeTags [d] s).text = body ∧
      ∀ m rest, m.column = 0 → AfterBreak lb rest → ReadsTok false m (body ++ rest) (.tagDirective d) rest := by
  have hok : TagDirOk d := ⟨handleOk_iff.mp hd, ht, hp⟩
  have hwr : tw (writeTags [d]) (fun _ t _ => t = tagDirText d ++ brkText (some lb)) s := by
    unfold writeTags
    rw [tw_bind, tw_writeIndicator, tw_bind, tw_writeTagHandle, tw_bind, tw_writeTagContent, tw_bind, tw_writeIndent, hl]
    · unfold writeTags
      rw [tw_pure]
      simp only [hw, lead, Emitter.indentCol] at hi ⊢
      simp [tagDirText, lit, hi]
    · unfold Emitter.needBreak
      simp
  obtain ⟨_, h1, h2⟩ := tw_out hwr
  refine ⟨h1, _, rfl, fun m rest hm hr => ?_⟩
  rw [h2, List.append_assoc]
  refine readsTok_of (k := .directive) (.inr (.inr rfl)) (fun hz => ?_) ⟨37, _, rfl, by decide⟩ (fun f hf => ?_)
  · show lw (dispatch false) _ m (37 :: _)
    unfold dispatch
    rw [lw_bind, lw_peek0, lw_bind, lw_get, lw_ite, if_neg (by decide), lw_ite, if_pos ⟨hm, rfl⟩]
    exact ⟨rfl, rfl, rfl⟩
  · refine lw_scanDirective_tag hok ?_ hr fun _ _ => ⟨rfl, rfl⟩
    rw [List.length_append] at hf
    omega

/-- Anchors and aliases are written and scanned back as they are. -/
theorem C47_anchor_round_trip {s : Emitter} (a : Text) (isAlias : Bool) (hok : (analyzeAnchor a isAlias s).val = .ok ()) :
    (processAnchor (analyzeAnchor a isAlias s).st).val = .ok () ∧
    ∃ body, (processAnchor (analyzeAnchor a isAlias s).st).text = lead s ++ body ∧
      ∀ flow m rest, (∃ c r, rest = c :: r ∧ endsAnchor c = true) →
        ReadsTok flow m (body ++ rest) (if isAlias = true then .alias a else .anchor a) rest := by
  have ha : a ≠ [] ∧ (∀ c ∈ a, isAlpha c = true) ∧ (analyzeAnchor a isAlias s).st = { s with anchor := some a, anchorIsAlias := isAlias } := by
    unfold analyzeAnchor at hok ⊢
    by_cases h1 : a.isEmpty = true
    · rw [if_pos h1] at hok; cases hok
    rw [if_neg h1] at hok ⊢
    by_cases h2 : (!a.all isAlpha) = true
    · rw [if_pos h2] at hok; cases hok
    rw [if_neg h2]
    refine ⟨by simpa using h1, ?_, rfl⟩
    have : a.all isAlpha = true := by simpa using h2
    exact List.all_eq_true.mp this
  obtain ⟨h1, h2, h3⟩ := ha
  rw [h3]
  have hp : tw processAnchor (fun _ t _ => t = lead s ++ (if isAlias = true then 42 else 38) :: a) { s with anchor := some a, anchorIsAlias := isAlias } := by
    rw [tw_processAnchor (v := a) rfl]
    rfl
  obtain ⟨_, h4, h5⟩ := tw_out hp
  refine ⟨h4, _, h5, fun flow m rest hr => ?_⟩
  rw [List.cons_append]
  cases isAlias with
  | true =>
    refine readsTok_of (k := .anchor false) (.inr (.inl ⟨_, rfl⟩)) (fun hz => ?_) ⟨42, _, rfl, by decide⟩ (fun f hf => ?_)
    · exact lw_dispatch_char hz (by decide) (by decide) (by decide) (by decide) ⟨rfl, rfl, rfl⟩
    · refine lw_scanAnchor (an := false) h2 h1 ?_ hr ⟨rfl, rfl⟩
      simp only [List.length_cons, List.length_append] at hf
      omega
  | false =>
    refine readsTok_of (k := .anchor true) (.inr (.inl ⟨_, rfl⟩)) (fun hz => ?_) ⟨38, _, rfl, by decide⟩ (fun f hf => ?_)
    · exact lw_dispatch_char hz (by decide) (by decide) (by decide) (by decide) ⟨rfl, rfl, rfl⟩
    · refine lw_scanAnchor (an := true) h2 h1 ?_ hr ⟨rfl, rfl⟩
      simp only [List.length_cons, List.length_append] at hf
      omega

/-! ### Where the claim fails -/

/-- An emitter in a document without directives. -/
def tagDemo : Emitter := { tags := emitterDefaultTags, lineBreak := some .ln, whitespace := true }

/-- The tag `!a,b`. -/
def commaTag : Text := lit ['!', 'a', ',', 'b']

/-- The result of scanning a tag. -/
def tagOutcome (flow : Bool) (cs : Text) : Option (TokData × Text) :=
  match (scanTag 20 flow {}).run { cs := cs, avail := cs.length, bad := none } with
  | .ok ((t, _), i) => some (t.data, i.cs)
  | .error _ => none

/-- **C47 fails as stated.** The tag `!a,b` is written as `!a,b`; before a blank the scanner reports an error for it outside of flow
collections, and inside of them it reads the tag `!a`. -/
theorem C47_violated :
    (analyzeTag commaTag tagDemo).val = .ok () ∧
    (processTag (analyzeTag commaTag tagDemo).st).text = lit ['!', 'a', ',', 'b'] ∧
    tagOutcome false (lit ['!', 'a', ',', 'b', ' ', 'x'] ++ [0]) = none ∧
    tagOutcome true (lit ['!', 'a', ',', 'b', ' ', 'x'] ++ [0]) = some (.tag [33] [97], lit [',', 'b', ' ', 'x'] ++ [0]) := by
  refine ⟨?_, ?_, ?_, ?_⟩ <;> rfl

/-- A document with a directive and a tag to which it applies. -/
example : EmitsIn [⟨lit ['!', 'e', '!'], lit ['t', 'a', 'g', ':', 'x', '/']⟩]
    (emitDocumentStartEvent none [⟨lit ['!', 'e', '!'], lit ['t', 'a', 'g', ':', 'x', '/']⟩] false true { lineBreak := some .ln, state := .firstDocumentStart }).st :=
  C47_document_start rfl rfl

/-- The tag `tag:x/é` is shortened to `!e!` and an escaped suffix. -/
example : (processTag (analyzeTag (lit ['t', 'a', 'g', ':', 'x', '/', 'é'])
      { tags := knownTags [⟨lit ['!', 'e', '!'], lit ['t', 'a', 'g', ':', 'x', '/']⟩], whitespace := true }).st).text =
    lit ['!', 'e', '!', '%', 'C', '3', '%', 'A', '9'] := rfl

example : TagEnd false (lit [' ', 'x']) := ⟨32, _, rfl, rfl⟩

end LibYaml
