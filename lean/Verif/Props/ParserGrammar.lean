import Verif.Proofs.GrammarRun

/-!
# Property C53: the language of the parser

parser.c:4-38 documents a grammar of tokens. `Spec/TokenGrammar.lean` states it as a relation between tokens and events,
in three versions. The parser accepts exactly the words of the version called `implemented`, with exactly the events that
the grammar gives them. That version differs from the documented one, in both directions.
-/

namespace LibYaml

open Spec

variable {σ : Type} {S : TokSrc σ}

/-- The nesting limit is never reached, however many tokens are read. -/
def BelowLimit (S : TokSrc σ) (x : σ) (n : Int) : Prop := ∀ toks y, Feeds S x toks y → (S.depth y : Int) < n

/-- C53. Whenever the parser reaches the end of the stream, the tokens it consumed are a word of the grammar as
implemented, and the events are the ones the grammar gives them. -/
theorem C53_sound (hS : S.Safe) (n : Int) (fuel k : Nat) (x : σ) {os : List POut} {p : Parser σ}
    (h : parseN S n fuel k (Parser.init x) = .ok (os, p)) (hend : .streamEnd ∈ events os) :
    ∃ toks y, Feeds S x toks y ∧ Stream .implemented (toks.map Token.data) (events os) := by
  obtain ⟨c, hrun, hrel⟩ := runs_of_parse (init_rel x) h
  have hd := (C26_stacks_empty_at_end hS n fuel k x h hend).2.2
  obtain ⟨ts, k', hs, hst, _⟩ := stream_sound (by rw [← hrel.st, hd]) hrun
  obtain ⟨toks, z, hf, hm, _⟩ := feeds_of_seg hs (.nil x) rfl
  exact ⟨toks, z, by simpa using hf, by rw [hm]; exact hst⟩

/-- C53. If the source delivers a word of the grammar as implemented, the parser accepts it: each call delivers the next
event that the grammar gives, up to STREAM-END. -/
theorem C53_complete (hS : S.Safe) (n : Int) (fuel : Nat) (x : σ) (hn : BelowLimit S x n) {toks : List Token} {y : σ}
    (hf : Feeds S x toks y) (hfuel : toks.length < fuel) {evs : List EvData}
    (h : Stream .implemented (toks.map Token.data) evs) :
    ∃ (es : List Event) (p : Parser σ), es.map Event.data = evs ∧
      parseN S n fuel evs.length (Parser.init x) = .ok (es.map .event, p) ∧ p.error = none ∧ p.st.state = .done := by
  obtain ⟨_, hseg⟩ := after_of_feeds hf
  have hrun := stream_complete (f := S.tok x) (fuel := fuel) (by simp) h hseg (by simpa using hfuel)
  have hsh : Shallow S x n := fun k y hy => by
    obtain ⟨toks, hf⟩ := feeds_of_after hy
    exact hn toks y hf
  obtain ⟨es, p, h1, h2, h3⟩ := parse_of_runs hS hsh (p := Parser.init x) (init_rel x) (init_inv x) (.inl (init_einv x)) rfl hrun
  refine ⟨es, p, h1, h2, ?_, h3.st⟩
  have keep : ∀ (k : Nat) (p p' : Parser σ) (es : List Event), p.error = none →
      parseN S n fuel k p = .ok (es.map .event, p') → p'.error = none := by
    intro k
    induction k with
    | zero => intro p p' es he h; cases es <;> cases h; exact he
    | succ k ih =>
      intro p p' es he h
      simp only [parseN] at h
      cases hp : parse S n fuel p with
      | error e => rw [hp] at h; cases h
      | ok r =>
        obtain ⟨o, q⟩ := r
        rw [hp] at h
        simp only at h
        cases hq : parseN S n fuel k q with
        | error e => rw [hq] at h; cases h
        | ok r =>
          obtain ⟨os, p2⟩ := r
          rw [hq] at h
          simp only [Except.ok.injEq, Prod.mk.injEq] at h
          obtain ⟨h1, rfl⟩ := h
          cases es with
          | nil => cases h1
          | cons e es =>
            simp only [List.map_cons, List.cons.injEq] at h1
            obtain ⟨rfl, rfl⟩ := h1
            refine ih q p2 es ?_ hq
            rcases parse_cases hp with ⟨h, _⟩ | ⟨_, st, _, rfl, _, h, _⟩ | ⟨_, h, _⟩
            · cases h
            · exact h
            · cases h
  exact keep _ _ _ _ rfl h2

/-- C53. The language of the parser, for every source of tokens that stays below the nesting limit: the events are
delivered up to STREAM-END by some number of calls exactly if the source delivers tokens that the grammar relates to them. -/
theorem C53_language (hS : S.Safe) (n : Int) (x : σ) (hn : BelowLimit S x n) (evs : List EvData) :
    (∃ fuel k os p, parseN S n fuel k (Parser.init x) = .ok (os, p) ∧ events os = evs ∧ .streamEnd ∈ evs) ↔
      ∃ toks y, Feeds S x toks y ∧ Stream .implemented (toks.map Token.data) evs := by
  constructor
  · rintro ⟨fuel, k, os, p, h, rfl, hend⟩
    exact C53_sound hS n fuel k x h hend
  · rintro ⟨toks, y, hf, h⟩
    obtain ⟨es, p, h1, h2, _⟩ := C53_complete hS n (toks.length + 1) x hn hf (Nat.lt_succ_self _) h
    have hev : ∀ es : List Event, events (es.map .event) = es.map Event.data := by
      intro es
      induction es with
      | nil => rfl
      | cons e es ih => simp [events, ih]
    refine ⟨toks.length + 1, evs.length, _, p, h2, by rw [hev, h1], ?_⟩
    have hdocs : ∀ r er, Docs .implemented r er → .streamEnd ∈ er := by
      intro r er h
      induction h with
      | done => simp
      | doc k _ _ _ ih => simp [ih]
    have hstream : ∀ ts evs, Stream .implemented ts evs → .streamEnd ∈ evs := by
      intro ts evs h
      cases h with
      | explicit enc hd => simp [hdocs _ _ hd]
      | implicit enc k _ hd => simp [hdocs _ _ hd]
    exact hstream _ _ h

/-- C53. The grammar as implemented is unambiguous: the tokens determine the events. -/
theorem C53_unambiguous {ts : List TokData} {ev ev' : List EvData} (h : Stream .implemented ts ev)
    (h' : Stream .implemented ts ev') : ev = ev' := by
  have hseg : Seg (fun k => ts[k]?) 0 ts ts.length := by
    have : ∀ (a b : List TokData), Seg (fun k => (a ++ b)[k]?) a.length b (a.length + b.length) := by
      intro a b
      induction b generalizing a with
      | nil => exact rfl
      | cons t b ih =>
        refine ⟨by simp, ?_⟩
        have := ih (a ++ [t])
        simp only [List.append_assoc, List.singleton_append, List.length_append, List.length_cons, List.length_nil] at this
        rw [List.length_cons]
        have e : a.length + (b.length + 1) = a.length + (0 + 1) + b.length := by omega
        rw [e]
        exact this
    simpa using this [] ts
  exact (runs_unique rfl rfl (stream_complete (by simp) h hseg (Nat.lt_succ_self _))
    (stream_complete (by simp) h' hseg (Nat.lt_succ_self _))).1

/-! ### The documented grammar -/

/-- The common productions belong to both grammars. -/
theorem gram_mono {tags : List TagDir} {nt : Nt} {ts : List TokData} {ev : List EvData} (v : Variant)
    (h : Gram .common tags nt ts ev) : Gram v tags nt ts ev := by
  induction h with
  | alias a => exact .alias a
  | scalar x s hp => exact .scalar x s hp
  | empty hp hne => exact .empty hp hne
  | flowSequence hp _ ih => exact .flowSequence hp ih
  | flowMapping hp _ ih => exact .flowMapping hp ih
  | blockSequence hp _ ih => exact .blockSequence hp ih
  | blockMapping hp _ ih => exact .blockMapping hp ih
  | indentless hp _ hne ih => exact .indentless hp ih hne
  | missing => exact .missing
  | present _ ih => exact .present ih
  | noValue => exact .noValue
  | value _ ih => exact .value ih
  | entriesNil => exact .entriesNil
  | entriesCons _ _ ih ih' => exact .entriesCons ih ih'
  | pairsNil => exact .pairsNil
  | pairsCons _ _ _ ih ih' ih'' => exact .pairsCons ih ih' ih''
  | pairsValue hv => cases hv
  | itemsNil => exact .itemsNil
  | itemsOne _ ih => exact .itemsOne ih
  | itemsCons _ _ ih ih' => exact .itemsCons ih ih'
  | itemsEmptyKey hv => cases hv
  | item _ ih => exact .item ih
  | itemPair _ _ ih ih' => exact .itemPair ih ih'
  | itemPairNoKey hv => cases hv
  | itemPairLost hv => cases hv
  | fpairsNil => exact .fpairsNil
  | fpairsOne _ ih => exact .fpairsOne ih
  | fpairsCons _ _ ih ih' => exact .fpairsCons ih ih'
  | pairKey _ ih => exact .pairKey ih
  | pair _ _ ih ih' => exact .pair ih ih'

theorem docs_mono {ts : List TokData} {ev : List EvData} (v : Variant) (h : Docs .common ts ev) : Docs v ts ev := by
  induction h with
  | done => exact .done
  | doc k hd hn _ ih => exact .doc k hd (gram_mono v hn) ih

theorem stream_mono {ts : List TokData} {ev : List EvData} (v : Variant) (h : Stream .common ts ev) : Stream v ts ev := by
  cases h with
  | explicit enc hd => exact .explicit enc (docs_mono v hd)
  | implicit enc k hn hd => exact .implicit enc k (gram_mono v hn) (docs_mono v hd)

/-- C53, for the documented grammar. Full statement: the parser accepts exactly the words of `Stream .documented`. That is
false in both directions (below). What holds: without entries that lack their key the documented grammar and the parser
agree: such words are words of the documented grammar, and the parser delivers their events. -/
theorem C53_documented_partial (hS : S.Safe) (n : Int) (fuel : Nat) (x : σ) (hn : BelowLimit S x n) {toks : List Token} {y : σ}
    (hf : Feeds S x toks y) (hfuel : toks.length < fuel) {evs : List EvData} (h : Stream .common (toks.map Token.data) evs) :
    Stream .documented (toks.map Token.data) evs ∧ ∃ (es : List Event) (p : Parser σ), es.map Event.data = evs ∧
      parseN S n fuel evs.length (Parser.init x) = .ok (es.map .event, p) ∧ p.error = none ∧ p.st.state = .done :=
  ⟨stream_mono _ h, C53_complete hS n fuel x hn hf hfuel (stream_mono _ h)⟩

/-- The tokens of `[ ? : x ]`. -/
def emptyKeyTokens : List Token :=
  [tk (.streamStart .utf8), tk .flowSequenceStart, tk .key, tk .value, tk (.scalar (lit ['x']) .plain), tk .flowSequenceEnd,
   tk .streamEnd]

/-- The tokens of `: x` in block context. -/
def noKeyTokens : List Token :=
  [tk (.streamStart .utf8), tk .blockMappingStart, tk .value, tk (.scalar (lit ['x']) .plain), tk .blockEnd, tk .streamEnd]

/-- The tokens of `[ ? , , x ]`. -/
def twoCommasTokens : List Token :=
  [tk (.streamStart .utf8), tk .flowSequenceStart, tk .key, tk .flowEntry, tk .flowEntry, tk (.scalar (lit ['x']) .plain),
   tk .flowSequenceEnd, tk .streamEnd]

/-- C53 fails for the documented grammar: an entry of a flow sequence with an empty key (parser.c:33) is rejected. -/
theorem C53_documented_rejected_flow :
    (∃ evs, Stream .documented (emptyKeyTokens.map Token.data) evs) ∧
      ∃ os p, parseN (listSrc .fuel) 1000 30 8 (Parser.init emptyKeyTokens) = .ok (os, p) ∧ os.getLast? = some .failed := by
  constructor
  · have h1 : Gram .documented [] (.opt false false) [.scalar (lit ['x']) .plain] _ := .present (.scalar (p := []) _ _ .none)
    have h2 := Gram.flowSequence (b := true) (i := false) (p := []) .none (.itemsOne (.itemPairNoKey rfl (.value h1)))
    exact ⟨_, Stream.implicit .utf8 0 h2 .done⟩
  · obtain ⟨os, p, h1, h2, _⟩ := empty_flow_key_is_rejected
    exact ⟨os, p, h1, h2⟩

/-- C53 fails for the documented grammar: an entry of a block mapping without KEY (parser.c:25) is rejected. -/
theorem C53_documented_rejected_block :
    (∃ evs, Stream .documented (noKeyTokens.map Token.data) evs) ∧
      ∃ os p, parseN (listSrc .fuel) 1000 30 4 (Parser.init noKeyTokens) = .ok (os, p) ∧ os.getLast? = some .failed := by
  constructor
  · have h1 : Gram .documented [] (.opt true true) [.scalar (lit ['x']) .plain] _ := .present (.scalar (p := []) _ _ .none)
    have h2 := Gram.blockMapping (i := false) (p := []) .none (.pairsValue rfl h1 .pairsNil)
    exact ⟨_, Stream.implicit .utf8 0 h2 .done⟩
  · have h : outcome 4 noKeyTokens = some ([.streamStart (some .utf8), .documentStart none [] true,
        .mappingStart none none true .block], some .failed,
        some (.parser (some "while parsing a block mapping") {} "did not find expected key" {})) := by decide +kernel
    obtain ⟨os, p, h1, _, h2, _⟩ := outcome_ok h
    exact ⟨os, p, h1, h2⟩

/-! In the documented grammar no FLOW-ENTRY follows another directly. -/

/-- One token: whether a FLOW-ENTRY may come next. -/
def comma (ok : Bool) (d : TokData) : Option Bool :=
  if d = .flowEntry then if ok then some false else none else some true

def commas : Bool → List TokData → Option Bool
  | b, [] => some b
  | b, d :: ds => (comma b d).bind fun b => commas b ds

theorem commas_append (b : Bool) (x y : List TokData) : commas b (x ++ y) = (commas b x).bind fun b => commas b y := by
  induction x generalizing b with
  | nil => rfl
  | cons d x ih =>
    simp only [List.cons_append, commas]
    cases comma b d with
    | none => rfl
    | some b' => exact ih b'

theorem commas_props {tags : List TagDir} {p : List TokData} {a t : Option Text} (h : Properties tags p a t) (b : Bool) :
    commas b p = some (b || !p.isEmpty) := by
  cases h <;> simp [commas, comma]

/-- By nonterminal. -/
def Commas : Nt → List TokData → Prop
  | .node _ _, ts | .flowItem, ts | .flowPair, ts => ∀ b, commas b ts = some true
  | .opt _ _, ts | .value _ _, ts | .blockEntries, ts | .blockPairs, ts => commas true ts = some true ∧ (ts ≠ [] → ∀ b, commas b ts = some true)
  | .flowItems, ts | .flowPairs, ts => ∀ b, ∃ b', commas b ts = some b'

theorem commas_gram {tags : List TagDir} {nt : Nt} {ts : List TokData} {ev : List EvData} (h : Gram .documented tags nt ts ev) :
    Commas nt ts := by
  induction h with
  | alias a => intro b; simp [commas, comma]
  | scalar x s hp => intro b; rw [commas_append, commas_props hp]; simp [commas, comma]
  | @empty b i p a t hp hne =>
    intro b; rw [commas_props hp]
    cases p with
    | nil => exact absurd rfl hne
    | cons _ _ => simp
  | flowSequence hp _ ih =>
    intro b
    rw [List.append_assoc, commas_append, commas_props hp]
    obtain ⟨b', hb'⟩ := ih true
    simp [commas, comma, commas_append, hb']
  | flowMapping hp _ ih =>
    intro b
    rw [List.append_assoc, commas_append, commas_props hp]
    obtain ⟨b', hb'⟩ := ih true
    simp [commas, comma, commas_append, hb']
  | blockSequence hp _ ih =>
    intro b
    rw [List.append_assoc, commas_append, commas_props hp]
    simp [commas, comma, commas_append, ih.1]
  | blockMapping hp _ ih =>
    intro b
    rw [List.append_assoc, commas_append, commas_props hp]
    simp [commas, comma, commas_append, ih.1]
  | indentless hp _ hne ih =>
    intro b
    rw [commas_append, commas_props hp]
    exact ih.2 hne _
  | missing => exact ⟨rfl, fun h => absurd rfl h⟩
  | present _ ih => exact ⟨ih true, fun _ => ih⟩
  | noValue => exact ⟨rfl, fun h => absurd rfl h⟩
  | value _ ih => simp [Commas, commas, comma, ih.1]
  | entriesNil => exact ⟨rfl, fun h => absurd rfl h⟩
  | entriesCons _ _ ih ih' => simp [Commas, commas, comma, commas_append, ih.1, ih'.1]
  | pairsNil => exact ⟨rfl, fun h => absurd rfl h⟩
  | pairsCons _ _ _ ih ih' ih'' => simp [Commas, commas, comma, commas_append, ih.1, ih'.1, ih''.1]
  | pairsValue _ _ _ ih ih' => simp [Commas, commas, comma, commas_append, ih.1, ih'.1]
  | itemsNil => intro b; exact ⟨b, rfl⟩
  | itemsOne _ ih => intro b; exact ⟨true, ih b⟩
  | itemsCons _ _ ih ih' =>
    intro b
    obtain ⟨b', hb'⟩ := ih' false
    exact ⟨b', by rw [commas_append, ih b]; simp [commas, comma, hb']⟩
  | itemsEmptyKey hv => cases hv
  | item _ ih => exact ih
  | itemPair _ _ ih ih' => intro b; simp [commas, comma, commas_append, ih true, ih'.1]
  | itemPairNoKey _ _ ih => intro b; simp [commas, comma, ih.1]
  | itemPairLost hv => cases hv
  | fpairsNil => intro b; exact ⟨b, rfl⟩
  | fpairsOne _ ih => intro b; exact ⟨true, ih b⟩
  | fpairsCons _ _ ih ih' =>
    intro b
    obtain ⟨b', hb'⟩ := ih' false
    exact ⟨b', by rw [commas_append, ih b]; simp [commas, comma, hb']⟩
  | pairKey _ ih => exact ih
  | pair _ _ ih ih' => intro b; simp [commas, comma, commas_append, ih.1, ih'.1]

theorem commas_calm (b : Bool) {ts : List TokData} (h : ∀ d ∈ ts, d ≠ .flowEntry) : commas b ts = some (b || !ts.isEmpty) := by
  induction ts generalizing b with
  | nil => simp [commas]
  | cons d ts ih =>
    have h1 : d ≠ .flowEntry := h d (by simp)
    simp only [commas, comma, if_neg h1, Option.bind_some]
    rw [ih true (fun d hd => h d (List.mem_cons_of_mem _ hd))]
    simp

theorem commas_docs {ts : List TokData} {ev : List EvData} (h : Docs .documented ts ev) : commas true ts = some true := by
  induction h with
  | done => simp [commas, comma]
  | @doc ds version tags n en r er k hd hn _ ih =>
    have h1 : commas true ds = some true := by
      rw [commas_calm]
      · rfl
      · intro d hm
        rcases hd.1 d hm with ⟨v, rfl⟩ | ⟨t, rfl⟩ <;> simp
    have h2 : commas true (List.replicate k .documentEnd) = some true := by
      rw [commas_calm]
      · rfl
      · intro d hm; rw [(List.mem_replicate.mp hm).2]; simp
    have h3 := (commas_gram hn).1
    simp [commas_append, h1, h2, h3, commas, comma, ih]

theorem commas_stream {ts : List TokData} {ev : List EvData} (h : Stream .documented ts ev) : commas true ts = some true := by
  cases h with
  | explicit enc hd => simp [commas, comma, commas_docs hd]
  | implicit enc k hn hd =>
    have h2 : commas true (List.replicate k .documentEnd) = some true := by
      rw [commas_calm]
      · rfl
      · intro d hm; rw [(List.mem_replicate.mp hm).2]; simp
    have h3 := commas_gram hn true
    simp [commas_append, h2, h3, commas, comma, commas_docs hd]

/-- C53 fails for the documented grammar in the other direction: `[ ? , , x ]` is accepted, although no word of the
documented grammar has two commas in a row. -/
theorem C53_undocumented_accepted :
    (∀ evs, ¬ Stream .documented (twoCommasTokens.map Token.data) evs) ∧
      ∃ os p, parseN (listSrc .fuel) 1000 30 10 (Parser.init twoCommasTokens) = .ok (os, p) ∧ p.error = none ∧
        events os = [.streamStart (some .utf8), .documentStart none [] true, .sequenceStart none none true .flow,
          .mappingStart none none true .flow, absent, absent, .mappingEnd, .scalar none none (lit ['x']) true false .plain,
          .sequenceEnd, .documentEnd true] := by
  constructor
  · intro evs h
    have h1 := commas_stream h
    have h2 : commas true (twoCommasTokens.map Token.data) = none := by decide +kernel
    rw [h2] at h1
    cases h1
  · have h : (outcome 10 twoCommasTokens).map (fun r => (r.1, r.2.2)) =
        some ([.streamStart (some .utf8), .documentStart none [] true, .sequenceStart none none true .flow,
          .mappingStart none none true .flow, absent, absent, .mappingEnd, .scalar none none (lit ['x']) true false .plain,
          .sequenceEnd, .documentEnd true], none) := by decide +kernel
    cases ho : outcome 10 twoCommasTokens with
    | none => rw [ho] at h; cases h
    | some r =>
      rw [ho] at h
      simp only [Option.map_some, Option.some.injEq, Prod.mk.injEq] at h
      obtain ⟨os, p, h1, h2, _, h3⟩ := outcome_ok ho
      exact ⟨os, p, h1, by rw [h3, h.2], by rw [h2, h.1]⟩

/-! ### Cases that meet the hypotheses -/

theorem feeds_list {e : Fail} {x : List Token} {before : List Token} (toks : List Token) {rest : List Token}
    (h : Feeds (listSrc e) x before (toks ++ rest)) : Feeds (listSrc e) x (before ++ toks) rest := by
  induction toks generalizing before with
  | nil => simpa using h
  | cons t toks ih =>
    have := ih (before := before ++ [t]) (.snoc h rfl)
    simpa using this

/-- A list is below every positive limit. -/
example (e : Fail) (toks : List Token) : BelowLimit (listSrc e) toks 1000 := fun _ _ _ => by
  show ((0 : Nat) : Int) < 1000; decide

/-- A list of tokens delivers itself. -/
example (e : Fail) (toks : List Token) : Feeds (listSrc e) toks toks [] := by
  have := feeds_list (e := e) (x := toks) (before := []) toks (rest := []) (by rw [List.append_nil]; exact .nil _)
  simpa using this

/-- A word with a version, tags, an indentless sequence and two documents. -/
example : Stream .common
    [.streamStart .utf8, .blockMappingStart, .key, .anchor (lit ['a']), .scalar (lit ['k']) .plain, .value, .blockEntry,
     .tag (lit ['!']) (lit ['t']), .scalar (lit ['x']) .single, .blockEntry, .flowSequenceStart, .alias (lit ['a']),
     .flowEntry, .flowSequenceEnd, .blockEnd, .documentEnd, .documentEnd, .versionDirective ⟨1, 1⟩, .documentStart, .streamEnd]
    [.streamStart (some .utf8), .documentStart none [] true, .mappingStart none none true .block,
     .scalar (some (lit ['a'])) none (lit ['k']) true false .plain, .sequenceStart none none true .block,
     .scalar none (some (lit ['!', 't'])) (lit ['x']) false false .single, .sequenceStart none none true .flow,
     .alias (lit ['a']), .sequenceEnd, .sequenceEnd, .mappingEnd, .documentEnd false,
     .documentStart (some ⟨1, 1⟩) [] false, absent, .documentEnd true, .streamEnd] := by
  have k : Gram .common [] (.opt true true) [.anchor (lit ['a']), .scalar (lit ['k']) .plain] _ :=
    .present (.scalar _ _ (.anchor (lit ['a'])))
  have x : Gram .common [] (.opt true false) [.tag (lit ['!']) (lit ['t']), .scalar (lit ['x']) .single] _ :=
    .present (.scalar _ _ (.tag (h := lit ['!']) (s := lit ['t']) (t := lit ['!', 't']) (by decide +kernel)))
  have f : Gram .common [] (.opt true false) [.flowSequenceStart, .alias (lit ['a']), .flowEntry, .flowSequenceEnd] _ :=
    .present (.flowSequence (p := []) .none (.itemsCons (.item (.alias _)) .itemsNil))
  have s : Gram .common [] (.opt true true) _ _ :=
    .present (.indentless (b := true) (p := []) .none (.entriesCons x (.entriesCons f .entriesNil)) (by simp))
  have m := Gram.blockMapping (i := false) (p := []) .none (.pairsCons k (.value s) .pairsNil)
  have d : Docs .common _ _ := .doc (ds := [.versionDirective ⟨1, 1⟩]) (version := some ⟨1, 1⟩) (tags := []) 0
    ⟨by simp, rfl, by simp, rfl, by simp⟩ .missing .done
  exact Stream.implicit .utf8 2 m d

end LibYaml
