import Verif.Proofs.Encoding

/-!
# C38, C39: encodings

`Encoding.toLocal`, `Encoding.fromLocal`, `Encoding.decode`, `Encoding.appendDot` are the model of the code; `Spec.utf8`,
`Spec.Utf8Char`, `Spec.utf8Dot` the textbook.
-/

namespace Pire.Props

open Pire.Spec Pire.Enc Fsm

/-! ### C38 -/

/-- Encoding is the textbook encoding, one to four bytes long. -/
theorem C38_utf8_encodes {c : Nat} (h : c < 0x200000) :
    Encoding.utf8.toLocal c = Spec.utf8 c ∧ 1 ≤ (Encoding.utf8.toLocal c).length ∧ (Encoding.utf8.toLocal c).length ≤ 4 := by
  have h1 : Encoding.utf8.toLocal c = Spec.utf8 c := utf8ToLocal_eq h
  rw [h1]
  exact ⟨rfl, Utf8Char.length (utf8_char h)⟩

theorem utf8_bytes {c : Nat} (h : c < 0x200000) : ∀ b ∈ Spec.utf8 c, b < 256 := fun b hb =>
  lt_trans (Utf8Char.bytes (utf8_char h) b hb) (by omega)

/-- Decoding an encoded code point, whatever bytes follow, gives it back and consumes exactly its encoding. -/
theorem C38_utf8_round_trip {c : Nat} (h : c < 0x200000) {t : List Nat} (ht : ∀ b ∈ t, b < 256) :
    Encoding.utf8.fromLocal (Encoding.utf8.toLocal c ++ t) = .ok c (Encoding.utf8.toLocal c).length := by
  rw [(C38_utf8_encodes h).1]
  refine (readRune_ok_iff ?_).2 ⟨_, t, rfl, rfl, utf8_char h⟩
  intro b hb
  rcases List.mem_append.1 hb with hb | hb
  · exact utf8_bytes h b hb
  · exact ht b hb

/-- What decoding one character means: it succeeds exactly on a lead byte followed by the continuation bytes it
announces. -/
theorem C38_utf8_decodes {s : List Nat} (hs : ∀ b ∈ s, b < 256) {c n : Nat} :
    Encoding.utf8.fromLocal s = .ok c n ↔ ∃ w t, s = w ++ t ∧ w.length = n ∧ Utf8Char w c := readRune_ok_iff hs

/-- A whole text survives encoding and decoding. -/
theorem C38_utf8_text_round_trip {cs : List Nat} (h : ∀ c ∈ cs, c < 0x200000) :
    Encoding.utf8.decode (cs.flatMap Encoding.utf8.toLocal) = some (some cs) := by
  induction cs with
  | nil => rfl
  | cons c cs ih =>
    have ht : ∀ b ∈ cs.flatMap Encoding.utf8.toLocal, b < 256 := by
      intro b hb
      obtain ⟨d, hd, hb⟩ := List.mem_flatMap.1 hb
      have hd' := h d (by simp [hd])
      rw [(C38_utf8_encodes hd').1] at hb
      exact utf8_bytes hd' b hb
    rw [List.flatMap_cons, decode_cons (C38_utf8_round_trip (h c (by simp)) ht), List.drop_left,
      ih (fun d hd => h d (by simp [hd]))]
    rfl

/-- Distinct code points have distinct encodings, none a prefix of another. -/
theorem C38_utf8_prefix_free {c d : Nat} (hc : c < 0x200000) (hd : d < 0x200000) {t u : List Nat}
    (ht : ∀ b ∈ t, b < 256) (h : Encoding.utf8.toLocal c ++ t = Encoding.utf8.toLocal d ++ u) : c = d := by
  have hu : ∀ b ∈ u, b < 256 := by
    intro b hb
    have : b ∈ Encoding.utf8.toLocal c ++ t := by rw [h]; simp [hb]
    rcases List.mem_append.1 this with hb | hb
    · rw [(C38_utf8_encodes hc).1] at hb; exact utf8_bytes hc b hb
    · exact ht b hb
  have h1 := C38_utf8_round_trip hc ht
  rw [h, C38_utf8_round_trip hd hu] at h1
  simp only [Decoded.ok.injEq] at h1
  exact h1.1.symm

/-- Decoding a range never reads past its end. -/
theorem C38_decode_in_bounds (e : Encoding) (s : List Nat) : (e.decode s).isSome := decodeFuel_isSome e _ s

/-- Latin-1 (in this library: ASCII). -/
theorem C38_latin1_round_trip {c : Nat} (h : c < 0x80) (t : List Nat) :
    Encoding.latin1.toLocal c = [c] ∧ Encoding.latin1.fromLocal (c :: t) = .ok c 1 := by
  constructor
  · simp [Encoding.toLocal, latin1ToLocal, h]
  · simp only [Encoding.fromLocal, latin1FromLocal]; rw [if_neg (by omega)]

/-- Latin-1 rejects every byte and character it does not represent. -/
theorem C38_latin1_rejects {c : Nat} (h : 0x80 ≤ c) (t : List Nat) :
    Encoding.latin1.toLocal c = [] ∧ Encoding.latin1.fromLocal (c :: t) = .broken := by
  constructor
  · simp only [Encoding.toLocal, latin1ToLocal]; rw [if_neg (by omega)]
  · simp only [Encoding.fromLocal, latin1FromLocal]; rw [if_pos h]

/-- Reading one character from an empty UTF-8 range looks at the byte past its end; from an empty Latin-1 range it
throws. -/
theorem C38_empty_range : Encoding.utf8.fromLocal [] = .overread ∧ Encoding.latin1.fromLocal [] = .endOfInput :=
  ⟨rfl, rfl⟩

/-- The bound 0x200000 is needed: every code point from there on is encoded as a four-byte character, with the high
bits dropped, followed by one or two spaces. -/
theorem C38_utf8_large_code_points_are_wrong {c : Nat} (h : 0x200000 ≤ c) :
    ∃ n, (n = 1 ∨ n = 2) ∧ Encoding.utf8.toLocal c =
      [0xF0 + c / 262144 % 8, 0x80 + c / 4096 % 64, 0x80 + c / 64 % 64, 0x80 + c % 64] ++ List.replicate n 32 := by
  have e6 : c >>> 6 = c / 64 := Nat.shiftRight_eq_div_pow c 6
  have e12 : c >>> 12 = c / 4096 := Nat.shiftRight_eq_div_pow c 12
  have e18 : c >>> 18 = c / 262144 := Nat.shiftRight_eq_div_pow c 18
  have key : ∀ n, utf8RuneLenByUcs c = n + 4 → Encoding.utf8.toLocal c =
      [0xF0 + c / 262144 % 8, 0x80 + c / 4096 % 64, 0x80 + c / 64 % 64, 0x80 + c % 64] ++ List.replicate n 32 := by
    intro n hn
    simp only [Encoding.toLocal, utf8ToLocal, hn, List.length_replicate, utf8PutRune]
    rw [if_neg (by omega), if_neg (by omega), if_neg (by omega), if_neg (by omega)]
    simp only [byte, and_3f, and_7, e6, e12, e18]
    rw [or_f0 (by omega), or_80 (by omega), or_80 (by omega), or_80 (by omega)]
    simp only [overwrite, List.length_cons, List.length_nil, List.drop_replicate, List.cons_append, List.nil_append, Nat.reduceAdd,
      Nat.add_sub_cancel]
    simp only [List.cons.injEq, and_true]
    omega
  unfold utf8RuneLenByUcs at key
  rw [if_neg (by omega), if_neg (by omega), if_neg (by omega), if_neg (by omega)] at key
  by_cases h4 : c < 0x4000000
  · exact ⟨1, .inl rfl, key 1 (by rw [if_pos h4])⟩
  · exact ⟨2, .inr rfl, key 2 (by rw [if_neg h4])⟩

/-- Overlong forms, which the standard forbids, are decoded: the two bytes C1 81 read as `A`. -/
theorem C38_overlong_accepted : Encoding.utf8.fromLocal [0xC1, 0x81] = .ok 65 2 ∧ Spec.utf8 65 = [65] := by decide

/-- non-vacuity: the euro sign and what follows it. -/
example : Encoding.utf8.fromLocal (Encoding.utf8.toLocal 0x20AC ++ [0x41]) = .ok 0x20AC 3 := by decide

/-! ### C39 -/

/-- The UTF-8 dot appends exactly one character. -/
theorem C39_utf8_dot {f : Fsm} (h : f.WF) (hraw : f.Raw) (ha : f.isAlt = false) :
    (Encoding.utf8.appendDot f).Lang = f.Lang * utf8Dot := lang_utf8AppendDot h hraw ha

/-- The dot and the decoder agree on what a character is: on its own, the dot accepts a byte string iff the decoder
consumes it whole as one character. -/
theorem C39_dot_is_one_decoded_character {s : List Nat} (hs : ∀ b ∈ s, b < 256) :
    s ∈ (Encoding.utf8.appendDot Fsm.init).Lang ↔ ∃ c, Encoding.utf8.fromLocal s = .ok c s.length := by
  rw [C39_utf8_dot WF.init init_raw rfl, lang_init]
  change s ∈ (1 : Language Nat) * utf8Dot ↔ _
  rw [one_mul]
  constructor
  · rintro ⟨c, hc⟩
    exact ⟨c, (C38_utf8_decodes hs).2 ⟨s, [], by simp, rfl, hc⟩⟩
  · rintro ⟨c, hc⟩
    obtain ⟨w, t, rfl, hw, hc'⟩ := (C38_utf8_decodes hs).1 hc
    have : t = [] := List.length_eq_zero_iff.1 (by simp only [List.length_append] at hw; omega)
    subst this
    exact ⟨c, by simpa using hc'⟩

/-- In particular it accepts every encoded code point and nothing that is not made of bytes. -/
theorem C39_dot_accepts_every_character {c : Nat} (h : c < 0x200000) :
    Encoding.utf8.toLocal c ∈ (Encoding.utf8.appendDot Fsm.init).Lang := by
  rw [(C38_utf8_encodes h).1]
  have h1 := C38_utf8_round_trip h (t := []) (by simp)
  rw [List.append_nil, (C38_utf8_encodes h).1] at h1
  exact (C39_dot_is_one_decoded_character (utf8_bytes h)).2 ⟨c, h1⟩

/-- The Latin-1 dot appends exactly one byte, also those the encoding cannot represent. -/
theorem C39_latin1_dot {f : Fsm} (h : f.WF) (hraw : f.Raw) : (Encoding.latin1.appendDot f).Lang = f.Lang * anyByte :=
  lang_appendDot h hraw

/-- non-vacuity: after `a`, in UTF-8. -/
example : [97, 0xE2, 0x82, 0xAC] ∈ (Encoding.utf8.appendDot (Fsm.init.appendStr [97])).Lang := by
  have hw : IsWord [97] := by unfold IsWord; decide
  obtain ⟨h1, h2, h3⟩ := appendStr_props WF.init init_raw hw
  rw [C39_utf8_dot h1 h2 (by rfl), h3, lang_init]
  change _ ∈ (1 : Language Nat) * _ * _
  rw [one_mul]
  exact ⟨[97], rfl, [0xE2, 0x82, 0xAC], ⟨_, .three (by omega) (by omega) ⟨by omega, by omega⟩ ⟨by omega, by omega⟩⟩, rfl⟩

end Pire.Props
