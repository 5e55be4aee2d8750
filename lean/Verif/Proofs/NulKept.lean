import Verif.Spec.Layout

/-!
# No lexeme takes the end of the input

What comes behind a lexeme still has the NUL character that ends the input.
-/

namespace LibYaml

open Spec

variable {cs rest mid : List Nat}

theorem nul_front {a b : List Nat} (h : 0 ∈ a ++ b) (ha : ∀ x ∈ a, x ≠ 0) : 0 ∈ b := by
  rcases List.mem_append.mp h with h | h
  · exact absurd rfl (ha 0 h)
  · exact h

theorem nul_cons {a : Nat} {b : List Nat} (h : 0 ∈ a :: b) (ha : a ≠ 0) : 0 ∈ b := nul_front (a := [a]) h (by simpa using ha)

theorem blank_nul {x : Nat} (h : Blank x) : x ≠ 0 := by rcases h with rfl | rfl <;> decide

theorem white_nul {x : Nat} (h : ¬ White x) : x ≠ 0 := fun e => h (.inr (.inr e))

theorem word_nul {x : Nat} (h : Word x) : x ≠ 0 := by
  rintro rfl
  revert h
  unfold Word
  decide

theorem Spec.BreakAt.nul {b : Nat} (h : BreakAt cs b rest) (hz : 0 ∈ cs) : 0 ∈ rest := by
  cases h <;> simpa using hz

theorem Spec.Lines.nul {ok : Nat → Nat → Prop} {col col' : Nat} {bs : List Nat} (h : Lines ok col cs bs rest col') (hz : 0 ∈ cs) : 0 ∈ rest := by
  induction h with
  | done => exact hz
  | blank hb _ _ ih => exact ih (nul_cons hz (blank_nul hb))
  | «break» hb _ ih => exact ih (hb.nul hz)

theorem Spec.Space.nul {ok : Nat → Nat → Prop} {col col' : Nat} {w : List Nat} {l : Bool} (h : Space ok col cs w rest col' l) (hz : 0 ∈ cs) : 0 ∈ rest := by
  cases h with
  | inline _ _ _ _ hb => exact nul_front hz fun x hx => blank_nul (hb x hx)
  | lines _ hw hb hl => exact hl.nul (hb.nul (nul_front hz fun x hx => blank_nul (hw x hx)))

theorem hex_nul {c d : Nat} (h : Hex c d) : c ≠ 0 := by cases h <;> omega

theorem hexNum_nul {v w : Nat} {ds : List Nat} (h : HexNum v ds w) : ∀ x ∈ ds, x ≠ 0 := by
  induction h with
  | nil => simp
  | cons h _ ih =>
    intro x hx
    rcases List.mem_cons.mp hx with rfl | hx
    · exact hex_nul h
    · exact ih x hx

theorem Spec.QChar.nul {single : Bool} {src : List Nat} {v : Nat} (h : QChar single src v) : ∀ x ∈ src, x ≠ 0 := by
  cases h with
  | self _ _ hw _ => simpa using white_nul hw
  | quote => decide
  | escape c v h =>
    simp only [escapes, List.mem_cons, Prod.mk.injEq, List.not_mem_nil, or_false] at h
    rcases h with ⟨rfl, rfl⟩ | ⟨rfl, rfl⟩ | ⟨rfl, rfl⟩ | ⟨rfl, rfl⟩ | ⟨rfl, rfl⟩ | ⟨rfl, rfl⟩ | ⟨rfl, rfl⟩ | ⟨rfl, rfl⟩ | ⟨rfl, rfl⟩ | ⟨rfl, rfl⟩ | ⟨rfl, rfl⟩ |
      ⟨rfl, rfl⟩ | ⟨rfl, rfl⟩ | ⟨rfl, rfl⟩ | ⟨rfl, rfl⟩ | ⟨rfl, rfl⟩ | ⟨rfl, rfl⟩ | ⟨rfl, rfl⟩ <;> decide
  | code c n v ds h _ hn =>
    intro x hx
    rcases List.mem_cons.mp hx with rfl | hx
    · decide
    rcases List.mem_cons.mp hx with rfl | hx
    · simp only [codes, List.mem_cons, Prod.mk.injEq, List.not_mem_nil, or_false] at h
      rcases h with ⟨rfl, rfl⟩ | ⟨rfl, rfl⟩ | ⟨rfl, rfl⟩ <;> decide
    · exact hexNum_nul hn x hx

theorem Spec.Quoted.nul {single : Bool} {col : Nat} {v : List Nat} (h : Quoted single col cs v rest) (hz : 0 ∈ cs) : 0 ∈ rest := by
  induction h with
  | close => exact nul_cons hz (by split <;> decide)
  | char h _ _ ih => exact ih (nul_front hz h.nul)
  | white hs _ ih => exact ih (hs.nul hz)
  | joined _ hb hl _ ih => exact ih (hl.nul (hb.nul (nul_cons hz (by decide))))

theorem Spec.Plain.nul {flow : Bool} {indent : Int} {col : Nat} {v : List Nat} {line : Bool} (h : Plain flow indent col cs v rest line) (hz : 0 ∈ cs) : 0 ∈ rest := by
  induction h with
  | stop => exact hz
  | char h _ ih =>
    obtain ⟨_, _, e, hw, _⟩ := h
    cases e
    exact ih (nul_cons hz (white_nul hw))
  | over hs _ => exact hs.nul hz
  | white hs _ _ ih => exact ih (hs.nul hz)

theorem chompMark_nul {a : Nat} {x : Chomping} (h : ChompMark a x) : a ≠ 0 := by cases h <;> decide
theorem indentMark_nul {a n : Nat} (h : IndentMark a n) : a ≠ 0 := by cases h; omega

theorem Spec.Header.nul {x : Chomping} {n : Nat} (h : Header cs x n rest) (hz : 0 ∈ cs) : 0 ∈ rest := by
  cases h with
  | none => exact hz
  | chomp _ _ h => exact nul_cons hz (chompMark_nul h)
  | indent _ _ h => exact nul_cons hz (indentMark_nul h)
  | both _ h h' => exact nul_cons (nul_cons hz (chompMark_nul h)) (indentMark_nul h')
  | both' _ h h' => exact nul_cons (nul_cons hz (indentMark_nul h)) (chompMark_nul h')

theorem Spec.LineEnd.nul {eof : Bool} (h : LineEnd cs rest eof) (hz : 0 ∈ cs) : 0 ∈ rest := by
  cases h with
  | «break» _ _ hw _ hc hb => exact hb.nul (nul_front (nul_front hz fun x hx => blank_nul (hw x hx)) fun x hx => (hc x hx).2)
  | eof => simp

theorem Spec.Empties.nul {n mx col : Nat} {bs : List Nat} (h : Empties n cs bs mx rest col) (hz : 0 ∈ cs) : 0 ∈ rest := by
  induction h with
  | last => exact nul_front hz fun x hx => by rw [List.eq_of_mem_replicate hx]; decide
  | line _ hb _ _ ih => exact ih (hb.nul (nul_front hz fun x hx => by rw [List.eq_of_mem_replicate hx]; decide))

theorem Spec.BlockText.nul {n col : Nat} {ls : List BlockLine} (h : BlockText n col cs ls mid rest) (hz : 0 ∈ cs) : 0 ∈ rest := by
  induction h with
  | over => exact hz
  | last => simp
  | line _ _ ht hb he _ ih => exact ih (he.nul (hb.nul (nul_front hz fun x hx => (ht x hx).2)))

theorem Spec.BlockScalar.nul {literal : Bool} {parent : Int} {v : List Nat} (h : BlockScalar literal parent cs v mid rest) (hz : 0 ∈ cs) : 0 ∈ rest := by
  cases h with
  | eof h1 h2 => simp
  | lines _ h1 h2 h3 _ h4 _ => exact h4.nul (h3.nul (h2.nul (h1.nul hz)))

theorem octets_nul {src os : List Nat} (h : Octets src os) : ∀ x ∈ src, x ≠ 0 := by
  induction h with
  | nil => simp
  | cons h1 h2 _ ih =>
    intro x hx
    simp only [List.mem_cons] at hx
    rcases hx with rfl | rfl | rfl | hx
    · decide
    · exact hex_nul h1
    · exact hex_nul h2
    · exact ih x hx

theorem uriChar_nul {full : Bool} {c : Nat} (h : UriChar full c) : c ≠ 0 := by
  rcases h with h | h | ⟨_, h⟩
  · exact word_nul h
  · rintro rfl; simp at h
  · rintro rfl; simp at h

theorem Spec.Uri.nul {full : Bool} {v : List Nat} (h : Uri full cs v rest) (hz : 0 ∈ cs) : 0 ∈ rest := by
  induction h with
  | done => exact hz
  | char h _ ih => exact ih (nul_cons hz (uriChar_nul h))
  | escape h _ _ _ ih => exact ih (nul_front hz (octets_nul h))

theorem Spec.TagText.nul {h v : List Nat} (ht : TagText cs h v rest) (hz : 0 ∈ cs) : 0 ∈ rest := by
  have hz := hz
  cases ht with
  | verbatim _ hu => exact nul_cons (hu.nul (nul_cons (nul_cons hz (by decide)) (by decide))) (by decide)
  | named _ hw _ hu => exact hu.nul (nul_cons (nul_front (nul_cons hz (by decide)) fun x hx => word_nul (hw x hx)) (by decide))
  | primary _ hw _ _ hu => exact hu.nul (nul_front (nul_cons hz (by decide)) fun x hx => word_nul (hw x hx))
  | bare _ hw _ _ hu => exact hu.nul (nul_front (nul_cons hz (by decide)) fun x hx => word_nul (hw x hx))

theorem decimal_nul {v w : Nat} {ds : List Nat} (h : Decimal v ds w) : ∀ x ∈ ds, x ≠ 0 := by
  induction h with
  | nil => simp
  | cons _ _ ih =>
    intro x hx
    rcases List.mem_cons.mp hx with rfl | hx
    · omega
    · exact ih x hx

theorem Spec.VersionAt.nul {j k : Nat} (h : VersionAt cs j k mid rest) (hz : 0 ∈ cs) : 0 ∈ rest := by
  cases h with
  | mk _ _ _ _ hw ha hb _ hl =>
    have h1 := nul_cons (nul_cons (nul_cons (nul_cons hz (by decide)) (by decide)) (by decide)) (by decide)
    have h2 := nul_cons (nul_front (nul_front h1 fun x hx => blank_nul (hw x hx)) (decimal_nul ha.1)) (by decide)
    exact hl.nul (nul_front h2 (decimal_nul hb.1))

theorem handle_nul {h : List Nat} (hh : Handle h) : ∀ x ∈ h, x ≠ 0 := by
  rcases hh with rfl | ⟨w, rfl, hw⟩
  · decide
  · intro x hx
    simp only [List.mem_cons, List.mem_append, List.not_mem_nil, or_false] at hx
    rcases hx with rfl | hx | rfl
    · decide
    · exact word_nul (hw x hx)
    · decide

theorem Spec.TagDirAt.nul {h p : List Nat} (ht : TagDirAt cs h p mid rest) (hz : 0 ∈ cs) : 0 ∈ rest := by
  cases ht with
  | mk _ _ _ _ hw hh _ hw' _ _ hu _ hl =>
    have h1 := nul_cons (nul_cons (nul_cons hz (by decide)) (by decide)) (by decide)
    have h2 := nul_front (nul_front (nul_front h1 fun x hx => blank_nul (hw x hx)) (handle_nul hh)) fun x hx => blank_nul (hw' x hx)
    exact hl.nul (hu.nul h2)

theorem Spec.Lexeme.nul {flow : Bool} {indent : Int} {col : Nat} {d : TokData} {line : Bool} (h : Lexeme flow indent col cs d mid rest line) (hz : 0 ∈ cs) :
    0 ∈ rest := by
  cases h with
  | streamEnd => exact hz
  | version _ h => exact h.nul (nul_cons hz (by decide))
  | tagDirective _ h => exact h.nul (nul_cons hz (by decide))
  | documentStart => exact nul_cons (nul_cons (nul_cons hz (by decide)) (by decide)) (by decide)
  | documentEnd => exact nul_cons (nul_cons (nul_cons hz (by decide)) (by decide)) (by decide)
  | anchor h => exact nul_front (h.1 ▸ nul_cons hz (by decide)) fun x hx => word_nul (h.2.2.1 x hx)
  | alias h => exact nul_front (h.1 ▸ nul_cons hz (by decide)) fun x hx => word_nul (h.2.2.1 x hx)
  | tag h => exact h.1.nul hz
  | literal _ h => exact h.nul (nul_cons hz (by decide))
  | folded _ h => exact h.nul (nul_cons hz (by decide))
  | single h => exact h.nul (nul_cons hz (by decide))
  | double h => exact h.nul (nul_cons hz (by decide))
  | plain _ _ h _ => exact h.nul hz
  | _ => exact nul_cons hz (by decide)

theorem Spec.Margin.nul {tabs : Bool} {col : Nat} (h : Margin tabs col cs rest) (hz : 0 ∈ cs) : 0 ∈ rest := by
  cases h with
  | mk bom ws com cs hb _ hw hc =>
    refine nul_front (nul_front (nul_front hz ?_) ?_) ?_
    · rcases hb with rfl | ⟨_, rfl⟩ <;> simp
    · intro x hx
      rcases hw x hx with rfl | ⟨_, rfl⟩ <;> decide
    · rcases hc with ⟨rfl, _⟩ | ⟨_, hc, _⟩
      · simp
      · exact fun x hx => (hc x hx).2

theorem Spec.Filler.nul {flow key key' : Bool} {col : Nat} (h : Filler flow key col cs key' rest) (hz : 0 ∈ cs) : 0 ∈ rest := by
  induction h with
  | last hm _ => exact hm.nul hz
  | next hm hb _ ih => exact ih (hb.nul (hm.nul hz))

/-- What is still to be read has the end of the input. -/
theorem Spec.Lexed.nul {T u r : List Nat} {ls : List Lx} {lv : Nat} {key : Bool} (h : Lexed T ls u lv key) (hz : 0 ∈ T) (hT : T = u ++ r) : 0 ∈ r := by
  induction h generalizing r with
  | start => rw [hT] at hz; exact hz
  | @next ls u lv key w v x mid rest key' kd line ls' d _ _ he hf hl _ _ _ _ ih =>
    have h1 := hl.nul (hf.nul (ih he))
    have : rest = r := by
      rw [he] at hT
      refine List.append_cancel_left (as := u ++ (w ++ v)) ?_
      rw [← hT]; simp
    rw [← this]
    exact h1

end LibYaml
