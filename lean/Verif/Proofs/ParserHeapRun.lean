import Verif.Proofs.ParserHeapStates
import Verif.Proofs.ParserTags

/-!
# Calls of the parser on the heap, initialization and deletion: helper lemmas
-/

namespace LibYaml

open Spec

set_option linter.unusedSectionVars false

variable {ρ σ : Type} [SrcMem ρ] [SrcLink ρ σ] [Strict]

/-- The events of a run on the heap are related (`R`) to those of the run on values, up to the first failure; `b` are their blocks. -/
inductive Follows (R : HPEvent → Event → Blocks → Prop) : List HOut → List POut → Blocks → Prop
  | nil : Follows R [] [] []
  | event {he ev x os vs b} : R he ev x → Follows R os vs b → Follows R (.event he :: os) (.event ev :: vs) (x ++ b)
  | done {os vs b} : Follows R os vs b → Follows R (.noEvent :: os) (.noEvent :: vs) b
  | failed {n vs} : vs.length = n + 1 → Follows R (.failed :: List.replicate n .noEvent) vs []

theorem Follows.mono {R R' : HPEvent → Event → Blocks → Prop} (hR : ∀ he ev x, R he ev x → R' he ev x) {os : List HOut} {vs : List POut} {b : Blocks}
    (h : Follows R os vs b) : Follows R' os vs b := by
  induction h with
  | nil => exact .nil
  | event hx _ ih => exact .event (hR _ _ _ hx) ih
  | done _ ih => exact .done ih
  | failed hn => exact .failed hn

/-- What is left of the events. -/
inductive OutKind
  | event
  | noEvent
  | failed
  deriving DecidableEq, Repr

def HOut.kind : HOut → OutKind
  | .event _ => .event
  | .noEvent => .noEvent
  | .failed => .failed

def POut.kind : POut → OutKind
  | .event _ => .event
  | .noEvent => .noEvent
  | .failed => .failed

section
variable {A : Prop} {base : Nat → Option Obj}

/-- Parsers on the heap and on values between two calls; `b` are the blocks of the former. -/
structure Both (p : HPar ρ) (q : Parser σ) (b : Blocks) : Prop where
  error : p.error = none
  error' : q.error = none
  own : Own p.st q.st b
  inv : (q.st.ended = true ∧ q.st.state = .done) ∨ EInv q.st

/-- What a call on the heap does in comparison with one on values. -/
def CallPost (A : Prop) (base : Nat → Option Obj) (fr : Blocks) (v : Except Fail (POut × Parser σ)) (r : HOut × HPar ρ) (h : Heap) : Prop :=
  match r.1 with
  | .event he => ∃ ev q x b, v = .ok (.event ev, q) ∧ EvGood he ev x ∧ Both r.2 q b ∧ Ext A base (x ++ (b ++ fr)) h
  | .noEvent => ∃ q b, v = .ok (.noEvent, q) ∧ Both r.2 q b ∧ Ext A base (b ++ fr) h
  | .failed => (∃ b, Left r.2.st b ∧ Ext A base (b ++ fr) h) ∧ r.2.error.isSome = true ∧
      ((∃ q, v = .ok (.failed, q) ∧ q.error = r.2.error) ∨ (r.2.error = some .memory ∧ (A → Full r.2.st)))

theorem hw_parseCall {H : HSrc ρ} {S : TokSrc σ} (hS : Link H S) {maxLevel : Int} {fuel : Nat} {p : HPar ρ} {q : Parser σ} {b fr : Blocks} {h : Heap}
    (hb : Both p q b) (e : Ext A base (b ++ fr) h) (hu : parse (cutSrc S) maxLevel fuel q ≠ .error .ub)
    (hf : parse (cutSrc S) maxLevel fuel q ≠ .error .fuel) :
    hw (hParseCall H maxLevel fuel p) (CallPost A base fr (parse (cutSrc S) maxLevel fuel q)) h := by
  obtain ⟨h1, h2, ho, hi⟩ := hb
  have ho' := ho
  obtain ⟨x1, x2, x3, x4, x5, k1, k2, k3, k4, k5, k6, k8, k9, k10⟩ := ho
  unfold hParseCall
  rcases hi with ⟨g1, g2⟩ | hi
  · rw [if_pos (by simp [k8, g1])]
    refine ⟨q, b, ?_, ⟨h1, h2, ho', .inl ⟨g1, g2⟩⟩, e⟩
    unfold parse
    rw [if_pos (by simp [g1])]
  · by_cases hd : q.st.state = .done
    · rw [if_pos (by simp [k9, hd])]
      refine ⟨q, b, ?_, ⟨h1, h2, ho', .inr hi⟩, e⟩
      unfold parse
      rw [if_pos (by simp [hd])]
    · have he : q.st.ended = false := hi.toGoing.ended
      rw [if_neg (by simp [k8, he, h1, k9, hd])]
      unfold parse at hu hf ⊢
      rw [if_neg (by simp [he, h2, hd])] at hu hf ⊢
      have hu1 : stateMachine (cutSrc S) maxLevel fuel q.st ≠ .error .ub := fun hx => by rw [hx] at hu; exact hu rfl
      have hf1 : stateMachine (cutSrc S) maxLevel fuel q.st ≠ .error .fuel := fun hx => by rw [hx] at hf; exact hf rfl
      rw [hw_bind]
      refine hw_mono (hw_stateMachine hS ho' hi e hu1 hf1) fun r h' hr => ?_
      obtain ⟨r, p'⟩ := r
      cases r with
      | ok he =>
        obtain ⟨ev, s', b', hv, ⟨x, hx, b0, g1, _, g3⟩, e'⟩ := hr
        simp only [hv]
        have hp := en_stateMachine (S := cutSrc S) (n := maxLevel) fuel hi
        unfold wp at hp
        rw [hv] at hp
        refine ⟨ev, _, x, b0, rfl, hx, ⟨h1, h2, g1, ?_⟩, e'.perm (by blocks_by g3)⟩
        by_cases hse : ev.data = .streamEnd
        · exact .inl (hp.1 hse)
        · exact .inr (hp.2 hse)
      | error er =>
        obtain ⟨⟨b', g1, e'⟩, hr2⟩ := hr
        refine ⟨⟨b', g1, e'⟩, rfl, ?_⟩
        rcases hr2 with hv | ⟨rfl, hfull⟩
        · left
          rw [hv] at hu1 hf1 ⊢
          cases er with
          | ub => exact absurd rfl hu1
          | fuel => exact absurd rfl hf1
          | _ => exact ⟨_, rfl, rfl⟩
        · exact .inr ⟨rfl, hfull⟩

/-- After a failure. -/
theorem hw_parseDead {H : HSrc ρ} {maxLevel : Int} {fuel n : Nat} {p : HPar ρ} {Q : List HOut × HPar ρ → Heap → Prop} {h : Heap}
    (hp : p.error.isSome = true) (hQ : Q (List.replicate n .noEvent, p) h) : hw (hParseN H maxLevel fuel n p) Q h := by
  induction n generalizing Q with
  | zero => exact hQ
  | succ n ih =>
    unfold hParseN
    rw [hw_bind]
    unfold hParseCall
    rw [if_pos (by simp [hp])]
    rw [hw_pure, hw_bind]
    exact ih hQ

theorem parse_dead {S : TokSrc σ} {maxLevel : Int} {fuel n : Nat} {q : Parser σ} (hq : q.error.isSome = true) :
    parseN S maxLevel fuel n q = .ok (List.replicate n .noEvent, q) := by
  induction n with
  | zero => rfl
  | succ n ih =>
    unfold parseN parse
    rw [if_pos (by simp [hq])]
    simp only [ih]
    rfl

theorem parseN_length {S : TokSrc σ} {maxLevel : Int} {fuel n : Nat} {q q' : Parser σ} {vs : List POut}
    (h : parseN S maxLevel fuel n q = .ok (vs, q')) : vs.length = n := by
  induction n generalizing q q' vs with
  | zero => cases h; rfl
  | succ n ih =>
    unfold parseN at h
    cases h1 : parse S maxLevel fuel q with
    | error e => rw [h1] at h; cases h
    | ok r =>
      obtain ⟨o, q1⟩ := r
      simp only [h1] at h
      cases h2 : parseN S maxLevel fuel n q1 with
      | error e => rw [h2] at h; cases h
      | ok r2 =>
        obtain ⟨os, q2⟩ := r2
        simp only [h2] at h
        cases h
        rw [List.length_cons, ih h2]

/-- What calls on the heap do in comparison with calls on values. -/
def RunPost (A : Prop) (base : Nat → Option Obj) (fr : Blocks) (vs : List POut) (q : Parser σ) (r : List HOut × HPar ρ) (h : Heap) : Prop :=
  ∃ x b, Follows EvGood r.1 vs x ∧ Left r.2.st b ∧ Ext A base (x ++ (b ++ fr)) h ∧
    ((r.1.map HOut.kind = vs.map POut.kind ∧ r.2.error = q.error) ∨ (r.2.error = some .memory ∧ (A → Full r.2.st)))

theorem hw_parseN {H : HSrc ρ} {S : TokSrc σ} (hS : Link H S) {maxLevel : Int} {fuel n : Nat} {p : HPar ρ} {q q' : Parser σ} {vs : List POut} {b fr : Blocks}
    {h : Heap} (hb : Both p q b) (e : Ext A base (b ++ fr) h) (hv : parseN (cutSrc S) maxLevel fuel n q = .ok (vs, q')) :
    hw (hParseN H maxLevel fuel n p) (RunPost A base fr vs q') h := by
  induction n generalizing p q q' vs b fr h with
  | zero =>
    cases hv
    exact ⟨[], b, .nil, hb.own.left, e, .inl ⟨rfl, by rw [hb.error, hb.error']⟩⟩
  | succ n ih =>
    unfold parseN at hv
    cases h1 : parse (cutSrc S) maxLevel fuel q with
    | error e => rw [h1] at hv; cases hv
    | ok r =>
      obtain ⟨o, q1⟩ := r
      simp only [h1] at hv
      cases h2 : parseN (cutSrc S) maxLevel fuel n q1 with
      | error e => rw [h2] at hv; cases hv
      | ok r2 =>
        obtain ⟨os, q2⟩ := r2
        simp only [h2] at hv
        cases hv
        unfold hParseN
        rw [hw_bind]
        refine hw_mono (hw_parseCall hS hb e (by rw [h1]; simp) (by rw [h1]; simp)) fun r h' hr => ?_
        obtain ⟨o', p1⟩ := r
        rw [h1] at hr
        simp only
        rw [hw_bind]
        cases o' with
        | event he =>
          obtain ⟨ev, q3, x, b1, g1, g2, g3, e'⟩ := hr
          cases g1
          refine hw_mono (ih (fr := x ++ fr) g3 (e'.perm (by blocks)) h2) fun r h'' hr => ?_
          obtain ⟨y, b2, j1, j2, e'', j3⟩ := hr
          refine ⟨x ++ y, b2, .event g2 j1, j2, e''.perm (by blocks), ?_⟩
          rcases j3 with ⟨i1, i2⟩ | i
          · left
            exact ⟨by simp only [List.map_cons]; rw [i1]; rfl, i2⟩
          · exact .inr i
        | noEvent =>
          obtain ⟨q3, b1, g1, g3, e'⟩ := hr
          cases g1
          refine hw_mono (ih g3 e' h2) fun r h'' hr => ?_
          obtain ⟨y, b2, j1, j2, e'', j3⟩ := hr
          refine ⟨y, b2, .done j1, j2, e'', ?_⟩
          rcases j3 with ⟨i1, i2⟩ | i
          · left
            exact ⟨by simp only [List.map_cons]; rw [i1]; rfl, i2⟩
          · exact .inr i
        | failed =>
          obtain ⟨⟨b1, g1, e'⟩, g2, g3⟩ := hr
          refine hw_parseDead g2 ⟨[], b1, .failed (by rw [List.length_cons, parseN_length h2]), g1, e', ?_⟩
          rcases g3 with ⟨q3, i1, i2⟩ | i
          · cases i1
            have hq : q1.error.isSome = true := by rw [i2]; exact g2
            rw [parse_dead hq] at h2
            cases h2
            left
            refine ⟨?_, i2.symm⟩
            simp only [List.map_cons, List.map_replicate]
            rfl
          · exact .inr i

/-! ### Deletion -/

theorem hw_tokenDelete {bs bs' : Blocks} {h : Heap} {d : TokData} {t : HTokData} {b : Blocks} {Q : Unit → Heap → Prop} (ht : TokAt d t b)
    (e : Ext A base bs h) (hp : bs.Perm (b ++ bs')) (hQ : ∀ h', Ext A base bs' h' → Q () h') : hw (tokenDelete t) Q h := by
  unfold tokenDelete
  cases d with
  | tagDirective d =>
    obtain ⟨p, q, x, y, rfl, k1, k2, rfl⟩ := ht
    simp only
    rw [hw_bind]
    exact hw_free_str (bs' := y ++ bs') e k1 (by blocks_by hp) fun h1 e1 => hw_free_str e1 k2 (List.Perm.refl _) hQ
  | tag d s =>
    obtain ⟨p, q, x, y, rfl, k1, k2, rfl⟩ := ht
    simp only
    rw [hw_bind]
    exact hw_free_str (bs' := y ++ bs') e k1 (by blocks_by hp) fun h1 e1 => hw_free_str e1 k2 (List.Perm.refl _) hQ
  | anchor a => obtain ⟨p, rfl, k1⟩ := ht; exact hw_free_str e k1 hp hQ
  | «alias» a => obtain ⟨p, rfl, k1⟩ := ht; exact hw_free_str e k1 hp hQ
  | scalar v st => obtain ⟨p, rfl, k1⟩ := ht; exact hw_free_str e k1 hp hQ
  | _ => obtain ⟨rfl, rfl⟩ := ht; exact hQ h (e.perm hp)

theorem hw_parserDelete {H : HSrc ρ} (hH : SrcCloses H) {p : HPS ρ} {b fr : Blocks} {h : Heap} {Q : Unit → Heap → Prop} (ho : Left p b) (e : Ext A base (b ++ fr) h)
    (hQ : ∀ h', Ext A base fr h' → Q () h') : hw (hParserDelete H p) Q h := by
  obtain ⟨vs, ms, ds, av, x1, x2, x3, x4, x5, ⟨a1, n1, k1, _, rfl⟩, ⟨a2, n2, k2, _, rfl⟩, k3, k4, k5, hb⟩ := ho
  unfold hParserDelete
  rw [hw_bind]
  have rest : ∀ h3, Ext A base (x5 ++ (x3 ++ ((a1, stkObj vs.reverse n1) :: (a2, stkObj ms.reverse n2) :: fr))) h3 →
      hw (do
        H.close p.src
        free p.states.start
        free p.marks.start
        let tags ← hClearDirs p.tags.top p.tags
        free tags.start) Q h3 := by
    intro h3 e3
    rw [hw_bind]
    refine hH.close k5 e3 fun h6 e6 => ?_
    rw [hw_bind, k1]
    refine hw_free (o := stkObj vs.reverse n1) (bs' := x3 ++ ((a2, stkObj ms.reverse n2) :: fr)) e6 (by blocks) fun h7 e7 => ?_
    rw [hw_bind, k2]
    refine hw_free (o := stkObj ms.reverse n2) (bs' := x3 ++ fr) e7 (by blocks) fun h8 e8 => ?_
    rw [hw_bind]
    refine hw_clearDirs (bs' := fr) k3 e8 (List.Perm.refl _) fun h9 s' x' j1 e9 => ?_
    obtain ⟨a, n, vs, b, rfl, hv, hd, rfl⟩ := j1
    obtain ⟨rfl, rfl⟩ := hd
    exact hw_free e9 (List.Perm.refl _) hQ
  unfold hDropTokens
  cases av with
  | none =>
    obtain ⟨k4, rfl⟩ := k4
    rw [k4]
    exact rest h (e.perm (by blocks_by hb))
  | some t =>
    obtain ⟨ht, k4, D, _, _, d3, _⟩ := k4
    rw [k4]
    exact hw_tokenDelete d3 e (by blocks_by hb) rest

/-! ### Initialization -/

theorem hw_parserError {H : HSrc ρ} (hH : SrcCloses H) {p : HPS ρ} {x : Blocks} {bs : Blocks} {h : Heap} {Q : Bool × HPS ρ → Heap → Prop}
    {y1 y2 : Blocks} (l1 : SrcMem.left p.src x) (l6 : (p.states.start = none ∧ y1 = []) ∨ ∃ a o, p.states.start = some a ∧ y1 = [(a, o)])
    (l7 : (p.marks.start = none ∧ y2 = []) ∨ ∃ a o, p.marks.start = some a ∧ y2 = [(a, o)]) (l8 : p.tags.start = none)
    (e : Ext A base (x ++ (y1 ++ (y2 ++ bs))) h) (hQ : ∀ h', Ext A base bs h' → Q (false, p) h') :
    hw (hParserError H p) Q h := by
  have one : ∀ {q : Ptr} {y bs : Blocks} {h : Heap} {Q : Unit → Heap → Prop}, ((q = none ∧ y = []) ∨ ∃ a o, q = some a ∧ y = [(a, o)]) →
      Ext A base (y ++ bs) h → (∀ h', Ext A base bs h' → Q () h') → hw (free q) Q h := by
    rintro q y bs h Q (⟨rfl, rfl⟩ | ⟨a, o, rfl, rfl⟩) e hQ
    · exact hw_free_null (hQ h e)
    · exact hw_free e (List.Perm.refl _) hQ
  unfold hParserError
  rw [hw_bind]
  refine hH.close l1 e fun h5 e5 => ?_
  rw [hw_bind]
  refine one l6 e5 fun h6 e6 => ?_
  rw [hw_bind]
  refine one l7 e6 fun h7 e7 => ?_
  rw [hw_bind, l8]
  exact hw_free_null (hQ h7 e7)

theorem hw_parserInit {H : HSrc ρ} {src : σ} (hH : SrcStarts H src) {bs : Blocks} {h : Heap} {Q : Bool × HPS ρ → Heap → Prop} (e : Ext A base bs h)
    (h0 : ∀ h' p, Ext A base bs h' → ¬ A → Q (false, p) h')
    (h1 : ∀ h' p b, Own p { src := src } b → Ext A base (b ++ bs) h' → Q (true, p) h') : hw (hParserInit H) Q h := by
  unfold hParserInit
  rw [hw_bind]
  refine hH.start e (fun h' x e' ha => ?_) fun h' x b k e5 => ?_
  · exact h0 h' _ e' ha
  simp only [Bool.not_true, Bool.false_eq_true, if_false]
  unfold hParserStacks
  simp only
  rw [hw_bind]
  refine hw_init e5 (fun h' e' ha => ?_) fun h' a1 e6 => ?_
  · rw [if_pos (by rfl)]
    exact hw_parserError hH.toSrcCloses (SrcLink.left k) (.inl ⟨rfl, rfl⟩) (.inl ⟨rfl, rfl⟩) rfl (e'.perm (by blocks)) fun h' e' => h0 h' _ e' ha
  rw [if_neg (by simp), hw_bind]
  refine hw_init e6 (fun h' e' ha => ?_) fun h' a2 e7 => ?_
  · rw [if_pos (by rfl)]
    exact hw_parserError hH.toSrcCloses (SrcLink.left k) (.inr ⟨a1, stkObj ([] : List PState) 16, rfl, rfl⟩) (.inl ⟨rfl, rfl⟩) rfl (e'.perm (by blocks)) fun h' e' => h0 h' _ e' ha
  rw [if_neg (by simp), hw_bind]
  refine hw_init e7 (fun h' e' ha => ?_) fun h' a3 e8 => ?_
  · rw [if_pos (by rfl)]
    exact hw_parserError hH.toSrcCloses (SrcLink.left k) (.inr ⟨a1, stkObj ([] : List PState) 16, rfl, rfl⟩) (.inr ⟨a2, stkObj ([] : List Mark) 16, rfl, rfl⟩) rfl (e'.perm (by blocks)) fun h' e' => h0 h' _ e' ha
  rw [if_neg (by simp)]
  refine h1 h' _ _ ⟨[(a1, stkObj ([] : List PState) 16)], [(a2, stkObj ([] : List Mark) 16)], [(a3, stkObj ([] : List (Ptr × Ptr)) 16)], [], b,
    ⟨a1, 16, rfl, .inr (by simp), rfl⟩, ⟨a2, 16, rfl, .inr (by simp), rfl⟩, ⟨a3, 16, [], [], rfl, .inr (by simp), ⟨rfl, rfl⟩, rfl⟩, ⟨rfl, rfl⟩,
    k, (fun d hd => by cases hd), rfl, rfl, List.Perm.refl _⟩ (e8.perm (by blocks))

/-! ### The events -/

/-- Delete the events. -/
def hDeleteEvents : List HOut → HM Unit
  | [] => return ()
  | .event e :: os => do
    eventDelete e.data
    hDeleteEvents os
  | _ :: os => hDeleteEvents os

theorem hw_deleteEvents {os : List HOut} {vs : List POut} {b fr : Blocks} {h : Heap} {Q : Unit → Heap → Prop} (hs : Follows EvAt os vs b)
    (e : Ext A base (b ++ fr) h) (hQ : ∀ h', Ext A base fr h' → Q () h') : hw (hDeleteEvents os) Q h := by
  induction hs generalizing h with
  | nil => exact hQ h e
  | event hx _ ih =>
    obtain ⟨E, k1, _⟩ := hx
    unfold hDeleteEvents
    rw [hw_bind]
    exact hw_dropEvent (e.perm (by blocks)) k1 fun h' e' => ih e'
  | done _ ih => exact ih e
  | failed _ =>
    rename_i n vs _
    clear * - e hQ
    show hw (hDeleteEvents (List.replicate n .noEvent)) Q h
    induction n with
    | zero => exact hQ h e
    | succ n ih => exact ih

end

end LibYaml
