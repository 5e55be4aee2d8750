import Verif.Proofs.Handlers
import Verif.Props.Pipeline
import Verif.Props.Writer

/-!
# C76: input and output handlers

The theorems about byte strings take an oracle for the read handler. Here they are tied to handlers with data of their own,
and to the string and file handlers of `src/api.c`.
-/

namespace LibYaml

open Spec

variable {ρ : Type}

/-- A parser that reads through the handler, after `yaml_parser_initialize`, `yaml_parser_set_input` and possibly
`yaml_parser_set_encoding`; as `scanStart`. -/
def handlerStart (enc : Option Enc) (bytes : List UInt8) (r : ρ) : ScanSt (RS × ρ) :=
  { scanner := { enc := (chosen enc bytes).1 }, input := (RS.init bytes enc, r) }

/-- The parser over it; as `parserStart`. -/
def handlerParser (enc : Option Enc) (bytes : List UInt8) (r : ρ) : Parser (Scanner × RS × ρ) :=
  Parser.init ((handlerStart enc bytes r).scanner, (handlerStart enc bytes r).input)

/-- Scanning, parsing and loading through the handler, with any number of calls, give what they give over the bytes with the
oracle: the same tokens, events, documents and errors. -/
def ReadsAs (H : ReadHandler ρ) (r : ρ) (o : Oracle) (bytes : List UInt8) : Prop :=
  ∀ (enc : Option Enc) (f k : Nat),
    (scanRunH H f (handlerStart enc bytes r) k).1 = (scanRun o f (scanStart enc bytes) k).1 ∧
    (scanRunH H f (handlerStart enc bytes r) k).2.error = (scanRun o f (scanStart enc bytes) k).2.error ∧
    (∀ n fuel, (parseN (handlerSrc H f) n fuel k (handlerParser enc bytes r)).map (fun x => (x.1, x.2.error)) =
      (parseBytes o n f fuel enc bytes k).map fun x => (x.1, x.2.error)) ∧
    ∀ room n fuel m, (loadN room (handlerSrc H f) n fuel m k (handlerParser enc bytes r)).map (fun x => (x.1, x.2.error)) =
      (loadBytes room o n f fuel m enc bytes k).map fun x => (x.1, x.2.error)

theorem agreeP_map {σ τ ω : Type} {R : σ → τ → Prop} {x : Except Fail (ω × Parser σ)} {y : Except Fail (ω × Parser τ)} (h : AgreeP R x y) :
    x.map (fun x => (x.1, x.2.error)) = y.map fun x => (x.1, x.2.error) := by
  cases x with
  | error e => rw [h.error]; rfl
  | ok a =>
    obtain ⟨a, p⟩ := a
    obtain ⟨y', _, h2⟩ := h.ok
    rw [h2]
    rfl

theorem agrees_readsAs {H : ReadHandler ρ} {o : Oracle} {I : ρ → Src → Prop} (hA : ActsAs H o I) {r : ρ} {bytes : List UInt8}
    (hi : I r { rest := bytes }) : ReadsAs H r o bytes := by
  intro enc f k
  have h1 := handler_scanRun hA f k (x := handlerStart enc bytes r) (y := scanStart enc bytes) ⟨rfl, rfl, hi, rfl, rfl⟩
  have hR : SrcPair I (handlerParser enc bytes r).st.src ((scanStart enc bytes).scanner, (scanStart enc bytes).input) := ⟨rfl, rfl, hi⟩
  refine ⟨h1.1, h1.2.2.2.2.2, fun n fuel => ?_, fun room n fuel m => ?_⟩
  · exact agreeP_map (parseN_sim (handler_simulates hA f) n fuel k (handlerParser enc bytes r) _ hR)
  · exact agreeP_map (loadN_sim (handler_simulates hA f) room n fuel m k (handlerParser enc bytes r) _ hR)

/-- **C76.** Take any read handler over a fixed content, with whatever data and however it divides the content and fails. There is
an oracle with which all that is proved about the content as a byte string holds for the parser with this handler. If
the handler does not fail, neither does the oracle. -/
theorem C76_any_read_handler (H : ReadHandler ρ) (good : ρ → List UInt8 → Prop) (hS : Serves H good) (r : ρ) (bytes : List UInt8)
    (hg : good r bytes) : ∃ o, (NeverFails H → NoFail o) ∧ ReadsAs H r o bytes :=
  ⟨replyOracle H r, fun h => replyOracle_noFail h r, agrees_readsAs (serves_agrees hS r) ⟨hg, rfl⟩⟩

/-- **C76.** `yaml_parser_set_input_string`: if the memory has the size told, nothing is read outside of it, and the parser
reads the first `size` bytes of it as a byte string, in pieces as large as asked for. -/
theorem C76_string_input (mem : List UInt8) (size : Nat) (hm : size ≤ mem.length) :
    ReadsAs stringRead (StrIn.set mem size) (fun _ => some rawCap) (mem.take size) :=
  agrees_readsAs (string_agrees mem size hm) ⟨rfl, rfl, Nat.zero_le _, rfl⟩

/-- **C76.** `yaml_parser_set_input_file`: the parser reads the content of the file as a byte string; the handler fails only if
the error indicator is set. -/
theorem C76_file_input {φ : Type} (F : Files φ) (good : φ → List UInt8 → Prop) (hF : FileReads F good) (file : φ) (bytes : List UInt8)
    (hg : good file bytes) : ∃ o, ((∀ f, F.ferror f = false) → NoFail o) ∧ ReadsAs (fileRead F) file o bytes := by
  obtain ⟨o, h1, h2⟩ := C76_any_read_handler (fileRead F) good (file_serves hF) file bytes hg
  refine ⟨o, fun h => h1 ?_, h2⟩
  intro r size r' he
  simp [fileRead, h] at he

/-- What a file holds after the buffers have been handed to the handler. -/
theorem feed_file {φ : Type} {F : Files φ} {content : φ → List UInt8} (hF : FileWrites F content) (bufs : List (List UInt8)) (f : φ) :
    ∃ r f', feed (fileWrite F) f bufs = .ok (r, f') ∧ ∃ l, content f' = content f ++ l ∧ l <+: bufs.flatten ∧ (r = true → l = bufs.flatten) := by
  induction bufs generalizing f with
  | nil => exact ⟨true, f, rfl, [], by simp, by simp, fun _ => rfl⟩
  | cons b bufs ih =>
    obtain ⟨h1, h2⟩ := hF f b
    unfold feed
    simp only [fileWrite]
    by_cases hb : (F.fwrite f b).1 = b.length
    · obtain ⟨r, f', h3, l, h4, h5, h6⟩ := ih (F.fwrite f b).2
      have hb' : ((F.fwrite f b).1 == b.length) = true := by simpa using hb
      simp only [hb']
      refine ⟨r, f', h3, b ++ l, ?_, ?_, fun hr => by rw [h6 hr]; rfl⟩
      · rw [h4, h2, hb, List.take_length, List.append_assoc]
      · rw [List.flatten_cons]
        exact (List.prefix_append_right_inj b).mpr h5
    · have hb' : ((F.fwrite f b).1 == b.length) = false := by simpa using hb
      simp only [hb']
      refine ⟨false, _, rfl, _, h2, ?_, by simp⟩
      rw [List.flatten_cons]
      exact (List.take_prefix _ _).trans (List.prefix_append _ _)

/-- **C76.** `yaml_emitter_set_output_file`: for every encoding and history of operations of the writer, what is appended to the file
is the beginning of the output, and all of it if the history ends in a flush and nothing fails; it fails only after a
short write. -/
theorem C76_file_output {φ : Type} (F : Files φ) (content : φ → List UInt8) (hF : FileWrites F content) (file : φ) (e : Enc)
    (ops : List WOp) (hv : ∀ op ∈ ops, op.Valid) :
    ∃ r st, runOps (fileWrite F) ops (WS.init e file) = .ok (r, st) ∧
      ∃ l, content st.sink = content file ++ l ∧ l <+: outBytes e (ops.flatMap WOp.text) ∧
        (r = true → ops.getLast? = some .flush → l = outBytes e (ops.flatMap WOp.text)) := by
  have hsafe : Safe (fileWrite F) (fun _ => True) := fun s b _ => ⟨_, _, rfl, trivial⟩
  obtain ⟨r, st, new, sent, left, h1, h2, h3, h4, h5, h6, h7, h8⟩ :=
    runOps_spec (fileWrite F) _ hsafe ops hv (WS.init e file) [] (winv_init _ _) trivial
  obtain ⟨r', f', f1, l, f2, f3, f4⟩ := feed_file hF new file
  simp only [WS.init] at h5 h6
  rw [f1] at h5
  injection h5 with h5
  injection h5 with hr hs
  rw [List.nil_append] at h7
  subst hs
  refine ⟨r, st, h1, l, f2, ?_, fun hrt hl => ?_⟩
  · rw [h7, outBytes_append, ← h6]
    exact f3.trans (List.prefix_append _ _)
  · have hln := (h8 hrt).2 hl
    subst hln
    rw [List.append_nil] at h7
    rw [f4 (by rw [hr, hrt]), h6, h7]

/-! ### Examples -/

/-- The string handler stops at the size told, not at the end of the memory. -/
example : (scanRunH stringRead 20 (handlerStart none [97, 58] (StrIn.set [97, 58, 32, 98] 2)) 8).1.map
    (fun | .token t => some (t.start.index, t.stop.index) | _ => none) =
    [some (0, 0), some (0, 0), some (0, 0), some (0, 1), some (1, 2), some (2, 2), some (2, 2), none] := by decide +kernel

/-- If the memory is smaller than told, it is read beyond its end. -/
example : stringRead (StrIn.set [97] 2) rawCap = .error .ub := rfl

/-- A file in memory: what is still to be read, what has been written, room for more, and the error indicator. -/
def memFiles : Files (List UInt8 × List UInt8 × Nat × Bool) where
  fread f n := (f.1.take n, f.1.drop n, f.2)
  fwrite f b := (min b.length f.2.2.1, f.1, f.2.1 ++ b.take (min b.length f.2.2.1), f.2.2.1 - b.length, decide (f.2.2.1 < b.length) || f.2.2.2)
  ferror f := f.2.2.2

example : FileReads memFiles fun f c => f.1 = c := by
  rintro f c size rfl
  refine ⟨f.1.drop size, (List.take_append_drop _ _).symm, ?_, fun h => .inr ?_, rfl⟩
  · show (f.1.take size).length ≤ size
    rw [List.length_take]; omega
  · rw [show (memFiles.fread f size).1 = f.1.take size from rfl, List.length_take] at h
    exact List.drop_eq_nil_of_le (by omega)

example : FileWrites memFiles fun f => f.2.1 := fun f b => ⟨Nat.min_le_left _ _, rfl⟩

/-- A disk that is full: three bytes have been asked for, two are written, and the writer fails. -/
example : ∃ st, runOps (fileWrite memFiles) [.chars [0x61], .chars [0x20AC], .flush] (WS.init .utf8 ([], [], 2, false)) = .ok (false, st) ∧
    st.sink.2.1 = [0x61, 0xE2] := ⟨_, rfl, rfl⟩

/-- A handler that hands out one byte and as many as asked for in turns, and never fails. -/
def turns : ReadHandler (List UInt8 × Bool) := fun r size =>
  let n := if r.2 then min 1 size else size
  .ok (some (r.1.take n), (r.1.drop n, !r.2))

example : Serves turns (fun r c => r.1 = c) ∧ NeverFails turns := by
  refine ⟨?_, ?_⟩
  · rintro r c size rfl
    refine ⟨_, _, rfl, fun l hl => ?_⟩
    injection hl with hl
    subst hl
    generalize hn : (if r.2 then min 1 size else size) = n
    have hle : n ≤ size := by rw [← hn]; split <;> omega
    have hz : n = 0 → size = 0 := by intro h; rw [← hn] at h; split at h <;> omega
    refine ⟨by rw [List.length_take]; omega, fun h => ?_, r.1.drop n, (List.take_append_drop _ _).symm, rfl⟩
    rcases List.take_eq_nil_iff.mp h with h | h
    · exact .inl (hz h)
    · exact .inr h
  · intro r size r' h
    simp [turns] at h

end LibYaml
