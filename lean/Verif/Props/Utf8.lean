/-
C90: the plugin and the command line tool take exactly the UTF-8 encodings of texts.
-/
import Verif.Proof.Utf8
import Verif.Props.Glob
import Verif.Props.Compile

namespace Mitex
open Utf8 Glob

/-- **C90**: the encoding of the model is the one of Lean's library, a list of numbers below 256. -/
theorem C90_encoding (c : Char) : encodeChar c = (String.utf8EncodeChar c).map UInt8.toNat := by
  have hv := Utf8.valid c
  unfold encodeChar String.utf8EncodeChar
  show _ = List.map UInt8.toNat (if c.toNat ≤ 0x7f then _ else if c.toNat ≤ 0x7ff then _ else if c.toNat ≤ 0xffff then _ else _)
  simp only []
  by_cases h1 : c.toNat < 0x80
  · rw [if_pos h1, if_pos (show c.toNat ≤ 0x7f by omega)]
    simp only [List.map_cons, List.map_nil, UInt8.toNat_ofNat', List.cons.injEq, and_true]
    show c.toNat = c.toNat % 2 ^ 8
    omega
  · rw [if_neg h1, if_neg (show ¬ c.toNat ≤ 0x7f by omega)]
    by_cases h2 : c.toNat < 0x800
    · rw [if_pos h2, if_pos (show c.toNat ≤ 0x7ff by omega)]
      simp only [List.map_cons, List.map_nil, UInt8.toNat_ofNat', List.cons.injEq, and_true]
      show 192 + c.toNat / 64 = (c.toNat / 64 % 32 + 192) % 2 ^ 8 ∧ 128 + c.toNat % 64 = (c.toNat % 64 + 128) % 2 ^ 8
      omega
    · rw [if_neg h2, if_neg (show ¬ c.toNat ≤ 0x7ff by omega)]
      by_cases h3 : c.toNat < 0x10000
      · rw [if_pos h3, if_pos (show c.toNat ≤ 0xffff by omega)]
        simp only [List.map_cons, List.map_nil, UInt8.toNat_ofNat', List.cons.injEq, and_true]
        show 224 + c.toNat / 4096 = (c.toNat / 4096 % 16 + 224) % 2 ^ 8 ∧ 128 + c.toNat / 64 % 64 = (c.toNat / 64 % 64 + 128) % 2 ^ 8 ∧
          128 + c.toNat % 64 = (c.toNat % 64 + 128) % 2 ^ 8
        omega
      · rw [if_neg h3, if_neg (show ¬ c.toNat ≤ 0xffff by omega)]
        simp only [List.map_cons, List.map_nil, UInt8.toNat_ofNat', List.cons.injEq, and_true]
        show 240 + c.toNat / 262144 = (c.toNat / 262144 % 8 + 240) % 2 ^ 8 ∧ 128 + c.toNat / 4096 % 64 = (c.toNat / 4096 % 64 + 128) % 2 ^ 8 ∧
          128 + c.toNat / 64 % 64 = (c.toNat / 64 % 64 + 128) % 2 ^ 8 ∧ 128 + c.toNat % 64 = (c.toNat % 64 + 128) % 2 ^ 8
        omega

/-- **C90**: bytes are decoded to a text exactly if they are its encoding. -/
theorem C90_exact (b : List Nat) (t : Text) : fromUtf8 b = .ok t ↔ b = bytes t := by
  constructor
  · exact fun h => decodeFrom_ok (Nat.le_refl _) h
  · rintro rfl
    exact decodeFrom_bytes t _ _ (Nat.le_refl _)

/-- **C90**: decoding fails exactly for bytes that are the encoding of no text. -/
theorem C90_fails (b : List Nat) : (∃ e, fromUtf8 b = .error e) ↔ ∀ t, b ≠ bytes t := by
  constructor
  · rintro ⟨e, he⟩ t ht
    rw [(C90_exact b t).2 ht] at he
    cases he
  · intro h
    cases hb : fromUtf8 b with
    | ok t => exact absurd ((C90_exact b t).1 hb) (h t)
    | error e => exact ⟨e, rfl⟩

/-- **C90**: where a failure is reported: before it stands the longest start of the input that is the encoding of a text. -/
theorem C90_position (b : List Nat) (e : Utf8.Error) (h : fromUtf8 b = .error e) :
    e.validUpTo < b.length ∧ (∃ t, b.take e.validUpTo = bytes t) ∧ ∀ t, bytes t <+: b → (bytes t).length ≤ e.validUpTo := by
  obtain ⟨t, r, h1, h2, h3, h4⟩ := decodeFrom_error (Nat.le_refl _) h
  rw [Nat.zero_add] at h2
  refine ⟨?_, ⟨t, by rw [h1, h2, List.take_left]⟩, fun t' ht' => ?_⟩
  · rw [h1, List.length_append, h2]
    have := List.length_pos_iff.2 h4
    omega
  · rw [h2]
    apply Nat.le_of_not_lt
    intro hlt
    have hp : bytes t <+: bytes t' := List.prefix_of_prefix_length_le ⟨r, h1.symm⟩ ht' (Nat.le_of_lt hlt)
    obtain ⟨y, rfl⟩ := (bytes_prefix _ _).1 hp
    obtain ⟨x, hx⟩ := ht'
    cases y with
    | nil => rw [List.append_nil] at hlt; exact Nat.lt_irrefl _ hlt
    | cons c y =>
      rw [h1, bytes, List.flatMap_append, List.append_assoc] at hx
      have hr : encodeChar c ++ (bytes y ++ x) = r := by
        have := List.append_cancel_left (show bytes t ++ _ = bytes t ++ r from hx)
        rw [← this, List.flatMap_cons, List.append_assoc]
        rfl
      rw [← hr, decode_encode] at h3
      cases h3

/-- **C90**: what is reported.  Without a number of bytes, the input is the start of the encoding of a longer text.  With a number, the input is
not, whatever is added; and the bytes that are counted are the longest start of the rest that begins a character, but at least one. -/
theorem C90_kind (b : List Nat) (e : Utf8.Error) (h : fromUtf8 b = .error e) :
    (e.errorLen = none ↔ ∃ x t, b ++ x = bytes t) ∧
    ∀ n, e.errorLen = some n → 1 ≤ n ∧ n ≤ 3 ∧ e.validUpTo + n ≤ b.length ∧
      (n = 1 ∨ ∃ c, (b.drop e.validUpTo).take n <+: encodeChar c) ∧ ∀ c, ¬ (b.drop e.validUpTo).take (n + 1) <+: encodeChar c := by
  obtain ⟨t, r, h1, h2, h3, h4⟩ := decodeFrom_error (Nat.le_refl _) h
  rw [Nat.zero_add] at h2
  have hd : b.drop e.validUpTo = r := by rw [h1, h2, List.drop_left]
  refine ⟨⟨fun hn => ?_, fun ⟨x, t', hx⟩ => ?_⟩, fun n hn => ?_⟩
  · rw [hn] at h3
    obtain ⟨c, x, _, hc⟩ := incomplete h3 h4
    refine ⟨x, t ++ [c], ?_⟩
    rw [h1, List.append_assoc, ← hc, bytes, bytes, List.flatMap_append]
    simp
  · cases hl : e.errorLen with
    | none => rfl
    | some n =>
      exfalso
      rw [hl] at h3
      obtain ⟨y, rfl⟩ := (bytes_prefix _ _).1 (show bytes t <+: bytes t' from ⟨r ++ x, by rw [← List.append_assoc, ← h1, hx]⟩)
      have hr : r ++ x = bytes y := by
        rw [h1, List.append_assoc, bytes, bytes, List.flatMap_append] at hx
        exact List.append_cancel_left hx
      have he := error_append h3 x
      rw [hr] at he
      cases y with
      | nil => exact absurd (List.append_eq_nil_iff.1 hr).1 h4
      | cons c y =>
        rw [Utf8.bytes_cons, decode_encode] at he
        cases he
  · rw [hn] at h3
    obtain ⟨g1, g2, g3, g4, g5⟩ := error_length h3
    rw [hd]
    refine ⟨g1, g2, ?_, g4, g5⟩
    rw [h1, List.length_append, h2]
    omega

/-- **C90**, the plugin: the answer is a result exactly if the input is the encoding of a text that is converted, and then it is the encoding of the
converted text. -/
theorem C90_plugin (decode : List Nat → CommandSpec) (conv : Text → Option CommandSpec → Res Text) (input spec o : List Nat) :
    plugin decode conv input spec = .ok o ↔ ∃ t out, input = bytes t ∧ conv t (extractSpec decode spec) = .ok out ∧ o = bytes out := by
  unfold plugin wasmConvert wasmIntoStr
  constructor
  · intro h
    cases hb : fromUtf8 input with
    | error e => rw [hb] at h; cases h
    | ok t =>
      rw [hb] at h
      cases hc : conv t (extractSpec decode spec) with
      | error s => simp only [] at h; rw [hc] at h; cases h
      | ok out =>
        simp only [] at h
        rw [hc] at h
        cases h
        exact ⟨t, out, (C90_exact _ _).1 hb, hc, rfl⟩
  · rintro ⟨t, out, h1, h2, rfl⟩
    rw [(C90_exact _ _).2 h1]
    simp only []
    rw [h2]
    rfl

/-- **C90**, the plugin: an input that is no text is refused, with the position of the first fault; nothing is converted, and nothing panics. -/
theorem C90_refused (decode : List Nat → CommandSpec) (conv : Text → Option CommandSpec → Res Text) (input spec : List Nat)
    (h : ∀ t, input ≠ bytes t) : ∃ e, fromUtf8 input = .error e ∧ plugin decode conv input spec = .error (.error e.message) := by
  obtain ⟨e, he⟩ := (C90_fails input).2 h
  refine ⟨e, he, ?_⟩
  unfold plugin wasmConvert wasmIntoStr
  rw [he]
  rfl

/-- **C90**, the plugin: the message of a refusal, in full.  It names the length of the longest start that is the encoding of a text, and says
that the input is incomplete exactly if it is the start of the encoding of a text. -/
theorem C90_message (decode : List Nat → CommandSpec) (conv : Text → Option CommandSpec → Res Text) (input spec : List Nat)
    (h : ∀ t, input ≠ bytes t) :
    ∃ k, k < input.length ∧ (∃ t, input.take k = bytes t) ∧ (∀ t, bytes t <+: input → (bytes t).length ≤ k) ∧
      (((∃ x t, input ++ x = bytes t) ∧
          plugin decode conv input spec = .error (.error (t!"incomplete utf-8 byte sequence from index " ++ (Nat.repr k).toList))) ∨
        ((¬ ∃ x t, input ++ x = bytes t) ∧ ∃ n, 1 ≤ n ∧ n ≤ 3 ∧ (n = 1 ∨ ∃ c, (input.drop k).take n <+: encodeChar c) ∧
          (∀ c, ¬ (input.drop k).take (n + 1) <+: encodeChar c) ∧
          plugin decode conv input spec =
            .error (.error (t!"invalid utf-8 sequence of " ++ (Nat.repr n).toList ++ t!" bytes from index " ++ (Nat.repr k).toList)))) := by
  obtain ⟨⟨k, l⟩, he, hp⟩ := C90_refused decode conv input spec h
  obtain ⟨h1, h2, h3⟩ := C90_position _ _ he
  obtain ⟨h4, h5⟩ := C90_kind _ _ he
  refine ⟨k, h1, h2, h3, ?_⟩
  cases l with
  | none => exact .inl ⟨h4.1 rfl, hp⟩
  | some n =>
    obtain ⟨h6, h7, -, h8, h9⟩ := h5 n rfl
    exact .inr ⟨fun hx => (by have := h4.2 hx; cases this), n, h6, h7, h8, h9, hp⟩

/-- **C90**, the plugin: on the encoding of a text it answers as the library does on the text. -/
theorem C90_text (decode : List Nat → CommandSpec) (conv : Text → Option CommandSpec → Res Text) (t : Text) (spec : List Nat) :
    plugin decode conv (bytes t) spec = (conv t (extractSpec decode spec)).map bytes := by
  unfold plugin wasmConvert wasmIntoStr
  rw [(C90_exact _ t).2 rfl]

/-- **C90**, the command line tool: it fails to read exactly those files that are not there or not the encoding of a text. -/
theorem C90_reads (fuel : Nat) (dflt : CommandSpec) (set : List Text) (ast : Text → Res Text) (os : Os) (fs : Fs) (input output : Text) (isAst : Bool) :
    (compileFile fuel dflt set readText ast os fs input output isAst).2 = .readFailed ↔ ∀ t, fs input ≠ some (bytes t) := by
  unfold compileFile readText
  cases hf : fs input with
  | none => simp
  | some b =>
    simp only [Option.bind_some]
    cases hb : fromUtf8 b with
    | error e =>
      simp only [Except.toOption, true_iff]
      exact fun t ht => (C90_fails b).1 ⟨e, hb⟩ t (Option.some.inj ht)
    | ok t =>
      simp only [Except.toOption]
      constructor
      · intro h
        exfalso
        revert h
        split
        · exact fun h => (by cases h)
        · exact fun h => (by cases h)
        · exact fun h => (by cases h)
        · unfold writeFile
          repeat' split
          all_goals exact fun h => (by cases h)
      · intro h
        exact absurd (congrArg some ((C90_exact _ _).1 hb)) (h t)

/-- **C90**, the command line tool: what it has written is the encoding of the document, and is read back as it. -/
theorem C90_read_back (set : List Text) (out : Text) : readText (bytes (outputDocument set out)) = some (outputDocument set out) := by
  unfold readText
  rw [(C90_exact _ _).2 rfl]
  rfl

/-- Two letters, one of them of three bytes; a byte that is none, a sequence that is cut, an encoding that is too long, and a surrogate. -/
theorem C90_example :
    bytes t!"a∑" = [97, 226, 136, 145] ∧ fromUtf8 [97, 226, 136, 145] = .ok t!"a∑" ∧
    fromUtf8 [97, 255, 97] = .error ⟨1, some 1⟩ ∧ fromUtf8 [97, 226, 136] = .error ⟨1, none⟩ ∧ fromUtf8 [97, 226, 136, 97] = .error ⟨1, some 2⟩ ∧
    fromUtf8 [192, 128] = .error ⟨0, some 1⟩ ∧ fromUtf8 [237, 160, 128] = .error ⟨0, some 1⟩ ∧ fromUtf8 [240, 159, 152, 128] = .ok t!"😀" ∧
    wasmIntoStr [97, 226, 136, 97] = .error t!"invalid utf-8 sequence of 2 bytes from index 1" ∧
    plugin (fun _ => defaultSpec) (convertMath 60 defaultSpec) [36, 97, 36] [] = .ok [97, 32] := by
  refine ⟨by decide, by decide +kernel, by decide, by decide, by decide, by decide, by decide, by decide +kernel, by decide +kernel, by decide +kernel⟩

end Mitex
