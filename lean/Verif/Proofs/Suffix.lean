import Verif.Spec.Layout

/-!
# A lexeme is a part of the text

What comes behind a lexeme is the end of the text.
-/

namespace LibYaml

open Spec

theorem suffix_front {α : Type} {a b c : List α} (h : a <:+ b) : a <:+ c ++ b := h.trans (List.suffix_append _ _)

theorem suffix_cons {α : Type} {a b : List α} {x : α} (h : a <:+ b) : a <:+ x :: b := h.trans (List.suffix_cons _ _)

variable {cs rest mid : List Nat}

theorem Spec.BreakAt.suffix {b : Nat} (h : BreakAt cs b rest) : rest <:+ cs := by
  cases h
  · exact ⟨[_, _], rfl⟩
  all_goals exact ⟨[_], rfl⟩

theorem Spec.Lines.suffix {ok : Nat → Nat → Prop} {col col' : Nat} {bs : List Nat} (h : Lines ok col cs bs rest col') : rest <:+ cs := by
  induction h with
  | done => exact List.suffix_refl _
  | blank _ _ _ ih => exact suffix_cons ih
  | «break» hb _ ih => exact ih.trans hb.suffix

theorem Spec.Space.suffix {ok : Nat → Nat → Prop} {col col' : Nat} {w : List Nat} {l : Bool} (h : Space ok col cs w rest col' l) : rest <:+ cs := by
  cases h with
  | inline => exact List.suffix_append _ _
  | lines _ _ hb hl => exact suffix_front (hl.suffix.trans hb.suffix)

theorem Spec.Quoted.suffix {single : Bool} {col : Nat} {v : List Nat} (h : Quoted single col cs v rest) : rest <:+ cs := by
  induction h with
  | close => exact List.suffix_cons _ _
  | char _ _ _ ih => exact suffix_front ih
  | white hs _ ih => exact ih.trans hs.suffix
  | joined _ hb hl _ ih => exact suffix_cons (ih.trans (hl.suffix.trans hb.suffix))

theorem Spec.Plain.suffix {flow : Bool} {indent : Int} {col : Nat} {v : List Nat} {line : Bool} (h : Plain flow indent col cs v rest line) : rest <:+ cs := by
  induction h with
  | stop => exact List.suffix_refl _
  | char _ _ ih => exact suffix_cons ih
  | over hs _ => exact hs.suffix
  | white hs _ _ ih => exact ih.trans hs.suffix

theorem Spec.Header.suffix {x : Chomping} {n : Nat} (h : Header cs x n rest) : rest <:+ cs := by
  cases h
  · exact List.suffix_refl _
  · exact ⟨[_], rfl⟩
  · exact ⟨[_], rfl⟩
  · exact ⟨[_, _], rfl⟩
  · exact ⟨[_, _], rfl⟩

theorem Spec.LineEnd.suffix {eof : Bool} (h : LineEnd cs rest eof) : rest <:+ cs := by
  cases h with
  | «break» _ _ _ _ _ hb => exact suffix_front (suffix_front hb.suffix)
  | eof => exact suffix_front (List.suffix_append _ _)

theorem Spec.Empties.suffix {n mx col : Nat} {bs : List Nat} (h : Empties n cs bs mx rest col) : List.replicate col 0x20 ++ rest <:+ cs := by
  induction h with
  | last => exact List.suffix_refl _
  | line _ hb _ _ ih => exact suffix_front (ih.trans hb.suffix)

theorem Spec.BlockText.suffix {n col : Nat} {ls : List BlockLine} (h : BlockText n col cs ls mid rest) :
    mid <:+ List.replicate col 0x20 ++ cs ∧ rest <:+ mid := by
  induction h with
  | over => exact ⟨List.suffix_refl _, List.suffix_append _ _⟩
  | last => exact ⟨suffix_front (List.suffix_append _ _), List.suffix_refl _⟩
  | line _ _ _ hb he _ ih => exact ⟨suffix_front (suffix_front (ih.1.trans (he.suffix.trans hb.suffix))), ih.2⟩

theorem Spec.BlockScalar.suffix {literal : Bool} {parent : Int} {v : List Nat} (h : BlockScalar literal parent cs v mid rest) : mid <:+ cs ∧ rest <:+ mid := by
  cases h with
  | eof h1 h2 => exact ⟨h2.suffix.trans h1.suffix, List.suffix_refl _⟩
  | lines _ h1 h2 h3 _ h4 _ => exact ⟨h4.suffix.1.trans (h3.suffix.trans (h2.suffix.trans h1.suffix)), h4.suffix.2⟩

theorem Spec.Uri.suffix {full : Bool} {v : List Nat} (h : Uri full cs v rest) : rest <:+ cs := by
  induction h with
  | done => exact List.suffix_refl _
  | char _ _ ih => exact suffix_cons ih
  | escape _ _ _ _ ih => exact suffix_front ih

theorem Spec.TagText.suffix {h v : List Nat} (ht : TagText cs h v rest) : rest <:+ cs := by
  cases ht with
  | verbatim _ hu => exact suffix_cons (suffix_cons ((List.suffix_cons _ _).trans hu.suffix))
  | named _ _ _ hu => exact suffix_cons (suffix_front (suffix_cons hu.suffix))
  | primary _ _ _ _ hu => exact suffix_cons (suffix_front hu.suffix)
  | bare _ _ _ _ hu => exact suffix_cons (suffix_front hu.suffix)

theorem Spec.VersionAt.suffix {j k : Nat} (h : VersionAt cs j k mid rest) : mid <:+ cs ∧ rest <:+ mid := by
  cases h with
  | mk _ _ _ _ _ _ _ _ hl =>
    exact ⟨suffix_cons (suffix_cons (suffix_cons (suffix_cons (suffix_front (suffix_front (suffix_cons (List.suffix_append _ _))))))), hl.suffix⟩

theorem Spec.TagDirAt.suffix {h p : List Nat} (ht : TagDirAt cs h p mid rest) : mid <:+ cs ∧ rest <:+ mid := by
  cases ht with
  | mk _ _ _ _ _ _ _ _ _ _ hu _ hl =>
    exact ⟨suffix_cons (suffix_cons (suffix_cons (suffix_front (suffix_front (suffix_front hu.suffix))))), hl.suffix⟩

/-- A lexeme ends inside of the text. -/
theorem Spec.Lexeme.suffix {flow : Bool} {indent : Int} {col : Nat} {d : TokData} {line : Bool} (h : Lexeme flow indent col cs d mid rest line) :
    mid <:+ cs ∧ rest <:+ mid := by
  cases h with
  | streamEnd => exact ⟨List.suffix_refl _, List.suffix_refl _⟩
  | version _ h => exact ⟨suffix_cons h.suffix.1, h.suffix.2⟩
  | tagDirective _ h => exact ⟨suffix_cons h.suffix.1, h.suffix.2⟩
  | documentStart => exact ⟨⟨[_, _, _], rfl⟩, List.suffix_refl _⟩
  | documentEnd => exact ⟨⟨[_, _, _], rfl⟩, List.suffix_refl _⟩
  | anchor h => exact ⟨suffix_cons ⟨_, h.1.symm⟩, List.suffix_refl _⟩
  | alias h => exact ⟨suffix_cons ⟨_, h.1.symm⟩, List.suffix_refl _⟩
  | tag h => exact ⟨h.1.suffix, List.suffix_refl _⟩
  | literal _ h => exact ⟨suffix_cons h.suffix.1, h.suffix.2⟩
  | folded _ h => exact ⟨suffix_cons h.suffix.1, h.suffix.2⟩
  | single h => exact ⟨suffix_cons h.suffix, List.suffix_refl _⟩
  | double h => exact ⟨suffix_cons h.suffix, List.suffix_refl _⟩
  | plain _ _ _ ht =>
    obtain ⟨a, b, h1, h2, _⟩ := ht
    exact ⟨⟨a, h1.symm⟩, ⟨b, h2.symm⟩⟩
  | _ => exact ⟨List.suffix_cons _ _, List.suffix_refl _⟩

end LibYaml
