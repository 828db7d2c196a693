import Verif.Model.Validator
import Verif.Spec.Email
import Verif.Props.Samples
import Verif.Props.Inline

/-!
# C73: the sample program `validator`
-/

namespace Pire.Props

open Pire Pire.Spec Pire.Lex Pire.Parse Pire.Enc Pire.Scn Pire.Multi Pire.Fsm Pire.Io Pire.Inline Pire.Samples

/-- `^[a-z0-9\.\-_]+@([a-z0-9\-]+\.)+[a-z]{2,}$`, without flags. -/
def emailItem : Item := ⟨text "^[a-z0-9\\.\\-_]+@([a-z0-9\\-]+\\.)+[a-z]{2,}$", []⟩

/-- `[a-z0-9\.\-_]`. -/
def nameChars : Finset Nat := Finset.Icc 97 122 ∪ (Finset.Icc 48 57 ∪ ({46} ∪ ({45} ∪ ({95} ∪ ∅))))

/-- `[a-z0-9\-]`. -/
def hostChars : Finset Nat := Finset.Icc 97 122 ∪ (Finset.Icc 48 57 ∪ ({45} ∪ ∅))

/-- `([a-z0-9\-]+\.)`. -/
def labelTerm : Term := .group (.one (.one (.one (.snoc (.snoc .nil (.rep (.letters hostChars false) 1 none)) (.one (.letters {46} false))))))

/-- The tree of the pattern. -/
def emailTree : Alt :=
  .one (.one (.one (.snoc (.snoc (.snoc (.snoc (.snoc (.snoc .nil (.one .bol)) (.rep (.letters nameChars false) 1 none)) (.one (.letters {64} false)))
    (.rep labelTerm 1 none)) (.rep (.letters (Finset.Icc 97 122) false) 2 none)) (.one .eol))))

theorem nameChars_iff {c : Nat} : c ∈ nameChars ↔ NameChar c := by
  simp only [nameChars, Finset.mem_union, Finset.mem_Icc, Finset.mem_singleton, Finset.notMem_empty, or_false, NameChar, HostChar, SmallLetter]
  omega

theorem hostChars_iff {c : Nat} : c ∈ hostChars ↔ HostChar c := by
  simp only [hostChars, Finset.mem_union, Finset.mem_Icc, Finset.mem_singleton, Finset.notMem_empty, or_false, HostChar, SmallLetter]

theorem nameChars_lt {c : Nat} (h : c ∈ nameChars) : c < 128 := by
  have := nameChars_iff.1 h
  simp only [NameChar, HostChar, SmallLetter] at this
  omega

theorem hostChars_lt {c : Nat} (h : c ∈ hostChars) : c < 128 := by
  have := hostChars_iff.1 h
  simp only [HostChar, SmallLetter] at this
  omega

theorem default_fold_range (x y : Nat) : (Finset.Icc x y).biUnion Flavor.default.fold = Finset.Icc x y := by
  ext c; simp [Flavor.default]

theorem default_widen (s : Finset Nat) : Flavor.default.widen s = s := by
  ext c; simp [Flavor.widen, Flavor.default]

theorem ascii_usable {c : Nat} (h : c < 128) : Usable c := by unfold Usable Reserved; omega

theorem ascii_bound {c : Nat} (h : c < 128) (h0 : c ≠ 0) (hc : c ∉ [94, 91, 93, 45, 92]) : Bound [c] c := .plain hc h0 (ascii_usable h)

theorem range_items {x y : Nat} (hx : x < 128) (hy : y < 128) (hx0 : x ≠ 0) (hy0 : y ≠ 0) (bx : x ∉ [94, 91, 93, 45, 92]) (bY : y ∉ [94, 91, 93, 45, 92]) {b : Bool} {t : List Nat}
    {cs : Finset Nat} (h : Items Flavor.default true t cs) : Items Flavor.default b (x :: 45 :: y :: t) (Finset.Icc x y ∪ cs) := by
  have := Items.range (b := b) (ascii_bound hx hx0 bx) (ascii_bound hy hy0 bY) (fun c _ h2 => ascii_usable (by omega)) h
  rw [default_fold_range] at this
  exact this

theorem email_pattern : Pattern Flavor.default emailItem.pattern emailTree.spell := by
  have s1 : ∀ {c : Nat}, Flavor.default.fold c = {c} := rfl
  have hn : Written Flavor.default (91 :: (text "a-z0-9\\.\\-_" ++ [93])) (.letters nameChars false) := by
    have h : Items Flavor.default true (text "a-z0-9\\.\\-_") nameChars :=
      range_items (x := 97) (y := 122) (by omega) (by omega) (by omega) (by omega) (by decide) (by decide) (range_items (x := 48) (y := 57) (by omega) (by omega) (by omega) (by omega) (by decide) (by decide)
        (.quoted (c := 46) (by decide) (.single (.quoted (c := 45) (by decide)) (.single (ascii_bound (c := 95) (by omega) (by omega) (by decide)) .nil))))
    have := Written.bracket h (by decide)
    rwa [default_widen] at this
  have hh : Written Flavor.default (91 :: (text "a-z0-9\\-" ++ [93])) (.letters hostChars false) := by
    have h : Items Flavor.default true (text "a-z0-9\\-") hostChars :=
      range_items (x := 97) (y := 122) (by omega) (by omega) (by omega) (by omega) (by decide) (by decide) (range_items (x := 48) (y := 57) (by omega) (by omega) (by omega) (by omega) (by decide) (by decide)
        (.single (.quoted (c := 45) (by decide)) .nil))
    have := Written.bracket h (by decide)
    rwa [default_widen] at this
  have ht : Written Flavor.default (91 :: (text "a-z" ++ [93])) (.letters (Finset.Icc 97 122) false) := by
    have h : Items Flavor.default true (text "a-z") (Finset.Icc 97 122 ∪ ∅) := range_items (x := 97) (y := 122) (by omega) (by omega) (by omega) (by omega) (by decide) (by decide) .nil
    have := Written.bracket h (by decide)
    rwa [default_widen, Finset.union_empty] at this
  have hat : Written Flavor.default [64] (.letters {64} false) := by
    have := Written.plain (fl := Flavor.default) (c := 64) (by decide) (ascii_usable (by omega))
    rwa [default_widen] at this
  have hdot : Written Flavor.default [92, 46] (.letters {46} false) := by
    have := Written.quoted (fl := Flavor.default) (c := 46) (by decide)
    rwa [default_widen] at this
  have h2 : Decimal ([] ++ [48 + 2]) (10 * 0 + 2) := .snoc .nil (by omega)
  exact .cons .bol (.cons hn (.cons .plus (.cons hat (.cons .opn (.cons hh (.cons .plus (.cons hdot (.cons .cls' (.cons .plus (.cons ht
    (.cons (.atLeast h2 (by simp) (by norm_num)) (.cons .eol .nil))))))))))))

theorem emailTree_ok : emailTree.Ok := by
  have h1 : ∀ d : Nat, d < 128 → ∀ c ∈ ({d} : Finset Nat), c < 0x200000 := by intro d hd c hc; rw [Finset.mem_singleton.1 hc]; omega
  have h2 : ∀ c ∈ Finset.Icc 97 122, c < 0x200000 := by intro c hc; have := (Finset.mem_Icc.1 hc).2; omega
  have h3 : ∀ c ∈ nameChars, c < 0x200000 := by intro c hc; have := nameChars_lt hc; omega
  have h4 : ∀ c ∈ hostChars, c < 0x200000 := by intro c hc; have := hostChars_lt hc; omega
  simp only [emailTree, labelTerm, Alt.Ok, Conj.Ok, Neg.Ok, Cat.Ok, Iter.Ok, Term.Ok, Iter.isEmpty, Term.isEmpty, Alt.isEmpty, Conj.isEmpty, Neg.isEmpty, Cat.isEmpty]
  refine ⟨⟨⟨⟨⟨⟨trivial, trivial, ?_⟩, ⟨h3, ?_, ?_⟩, ?_⟩, h1 64 (by omega), ?_⟩, ⟨⟨⟨trivial, ⟨h4, ?_, ?_⟩, ?_⟩, h1 46 (by omega), ?_⟩, ?_, ?_⟩, ?_⟩, ⟨h2, ?_, ?_⟩, ?_⟩, trivial, ?_⟩ <;> simp

theorem email_means : Means emailItem noOptions emailTree :=
  ⟨by simp [emailItem], rfl, show ∀ c ∈ emailItem.pattern, c < 128 by decide, by rw [noOptions_flavor]; exact email_pattern, emailTree_ok⟩

theorem labels_iff {w : List Nat} {L : Language Nat} (hL : ∀ w, w ∈ L ↔ ∃ l : List Nat, l ≠ [] ∧ (∀ c ∈ l, HostChar c) ∧ w = l ++ [46]) : w ∈ repeated L 1 none ↔ Labels w := by
  have key : ∀ n (w : List Nat), w ∈ L ^ (n + 1) → Labels w := by
    intro n
    induction n with
    | zero =>
      intro w h
      rw [Nat.zero_add, pow_one] at h
      obtain ⟨l, h1, h2, rfl⟩ := (hL w).1 h
      exact .one h1 h2
    | succ n ih =>
      intro w h
      rw [pow_succ', Language.mem_mul] at h
      obtain ⟨a, ha, b, hb, rfl⟩ := h
      obtain ⟨l, h1, h2, rfl⟩ := (hL a).1 ha
      rw [List.append_assoc]
      exact .more h1 h2 (ih b hb)
  constructor
  · rintro ⟨n, h1, -, h⟩
    obtain ⟨m, rfl⟩ : ∃ m, n = m + 1 := ⟨n - 1, by omega⟩
    exact key m w h
  · intro h
    suffices ∃ n, w ∈ L ^ (n + 1) by obtain ⟨n, h⟩ := this; exact ⟨n + 1, by omega, by simp, h⟩
    induction h with
    | @one l h1 h2 => exact ⟨0, by rw [Nat.zero_add, pow_one]; exact (hL _).2 ⟨l, h1, h2, rfl⟩⟩
    | @more l s h1 h2 _ ih =>
      obtain ⟨n, h⟩ := ih
      refine ⟨n + 1, ?_⟩
      rw [pow_succ', Language.mem_mul]
      exact ⟨l ++ [46], (hL _).2 ⟨l, h1, h2, rfl⟩, s, h, by simp⟩

theorem email_language {w : List Nat} : w ∈ emailTree.den .ascii ↔ ∃ m, w = 258 :: (m ++ [259]) ∧ IsEmail m := by
  have hl : ∀ w, w ∈ repeated (Term.den .ascii labelTerm) 1 none ↔ Labels w := by
    intro w
    refine labels_iff fun w => ?_
    simp only [labelTerm, Term.den, Alt.den, Conj.den, Neg.den, Cat.den, Iter.den]
    rw [charsOf_ascii (fun c => hostChars_lt), charsOf_ascii (cs := {46}) (by simp), one_mul]
    simp only [Language.mem_mul, oneOf_singleton, repeated_oneOf, hostChars_iff]
    constructor
    · rintro ⟨l, ⟨h1, h2⟩, x, rfl, rfl⟩; exact ⟨l, by rintro rfl; simp at h1, h2, rfl⟩
    · rintro ⟨l, h1, h2, rfl⟩; exact ⟨l, ⟨List.length_pos_iff.2 h1, h2⟩, _, rfl, rfl⟩
  have ht : ∀ w, w ∈ repeated (Term.den .ascii (.letters (Finset.Icc 97 122) false)) 2 none ↔ 2 ≤ w.length ∧ ∀ c ∈ w, SmallLetter c := by
    intro w
    simp only [Term.den]
    rw [charsOf_ascii (cs := Finset.Icc 97 122) (by intro c hc; have := (Finset.mem_Icc.1 hc).2; omega)]
    simp only [repeated_oneOf, Finset.mem_Icc, SmallLetter]
  have hn : ∀ w, w ∈ repeated (Term.den .ascii (.letters nameChars false)) 1 none ↔ w ≠ [] ∧ ∀ c ∈ w, NameChar c := by
    intro w
    simp only [Term.den]
    rw [charsOf_ascii (fun c => nameChars_lt)]
    simp only [repeated_oneOf, nameChars_iff]
    rw [← List.length_pos_iff]
    rfl
  have hat : ∀ w, w ∈ Term.den .ascii (.letters {64} false) ↔ w = [64] := by
    intro w
    simp only [Term.den]
    rw [charsOf_ascii (cs := {64}) (by simp), oneOf_singleton]
  unfold emailTree
  rw [Alt.den, Conj.den, Neg.den, Cat.den, Cat.den, Cat.den, Cat.den, Cat.den, Cat.den, Cat.den, one_mul, Iter.den, Iter.den, Iter.den, Iter.den, Iter.den, Iter.den]
  simp only [Language.mem_mul, hl, ht, hn, hat]
  constructor
  · rintro ⟨x, ⟨x, ⟨x, ⟨x, ⟨x, hx, a, ⟨ha, ha'⟩, rfl⟩, y, rfl, rfl⟩, l, hl, rfl⟩, t, ⟨h2, h3⟩, rfl⟩, z, hz, rfl⟩
    have hx : x = [258] := hx
    have hz : z = [259] := hz
    subst hx hz
    exact ⟨a ++ 64 :: (l ++ t), by simp, a, l, t, rfl, ha, ha', hl, h2, h3⟩
  · rintro ⟨m, rfl, a, l, t, rfl, h1, h2, h3, h4, h5⟩
    exact ⟨_, ⟨_, ⟨_, ⟨_, ⟨[258], rfl, a, ⟨h1, h2⟩, rfl⟩, [64], rfl, rfl⟩, l, h3, rfl⟩, t, ⟨h4, h5⟩, rfl⟩, [259], rfl, by simp⟩

theorem source_arguments : readArguments (validatorSource.length + 1) validatorSource [] [] = some [emailItem.pattern, []] := by decide +kernel

open Classical in
/-- The program made from samples/inline/validator.cpp asks for an address once more than it is given one, and calls invalid exactly those that are no addresses. The tool fails
only if the automaton is too big. -/
theorem C73_validator {null : Multi} {addr : Nat → Nat} (ha : Allocates null addr) (pad : Nat → Fin 256) :
    (expand null addr pad validatorSource = .throws ∧ ∃ f, emailItem.automaton = .ok f ∧ TooBig f) ∨
    ∃ g v, expand null addr pad validatorSource = .ok g ∧ (∀ v', Commented g.text v' ↔ v' = v) ∧
      ∀ (isa : Isa) (at_ : Strings) (null' : Multi) (mem : Mem) (ptr : Nat), Platform isa → InMemory at_ → v.length < 2 ^ 32 →
        ptr % 8 = 0 → ptr + 8 * v.length < 2 ^ 64 → (∀ i (hi : i < v.length), (mem (ptr + i)).val = v[i]) →
        ∀ (input : List Nat) (ws : List (List Nat)), Words input ws → (∀ c ∈ input, c < 256) →
          validator isa at_ null' mem ptr g.size input =
            .ok (text "Enter email: " ++ ws.flatMap (fun w => (if IsEmail w then [] else text "Invalid email, try once more\n") ++ text "Enter email: ") ++ [10]) := by
  obtain ⟨f, hf, hr, hL⟩ : ∃ f, emailItem.automaton = .ok f ∧ Ready f ∧ f.Lang = itemLanguage emailItem emailTree := by
    rcases C69_automaton email_means with h | ⟨-, h | h⟩
    · exact h
    · cases h
    · exact absurd h (by simp [emailItem])
  have hex : expand null addr pad validatorSource = generate null addr pad [emailItem.pattern, []] := by
    unfold expand
    rw [source_arguments]
  have hgen : generate null addr pad [emailItem.pattern, []] = (do
      let s ← scanners null addr [emailItem]
      .ok ⟨literalText [emailItem] (saveReloc scannerPolicy pad s), (saveReloc scannerPolicy pad s).length % 2 ^ 32⟩) := rfl
  have hsc : scanners null addr [emailItem] = (match compile scannerPolicy (addr 0) f with | none => Res.throws | some s => .ok s) := by
    rw [scanners, Item.scanner, hf, ok_bind]
    cases compile scannerPolicy (addr 0) f <;> rfl
  rw [hex, hgen, hsc]
  cases hc : compile scannerPolicy (addr 0) f with
  | none => exact .inl ⟨rfl, f, hf, C23_throws_only_if_too_big hr.good hc⟩
  | some sc =>
    right
    have hp : Placed scannerPolicy (addr 0) f sc := ⟨ha.align 0, compile_bufSize scanner_typedef.real hr.good hc (ha.space 0) hr.flag, by rw [hr.flag]; simp⟩
    obtain ⟨v, e, r⟩ := compile_spec scanner_typedef.real hr.good hr.tags hc hp.align hp.space hp.small
    obtain ⟨c1, c2⟩ := C69_text (xs := [emailItem]) (by decide) (saveReloc scannerPolicy pad sc)
    refine ⟨_, _, rfl, fun v' => ⟨c2 v', fun hv => hv ▸ c1⟩, ?_⟩
    intro isa at_ null' mem ptr hisa hat h32 hp8 hps hmem input ws hw hi
    rw [List.length_map] at h32 hps
    have hm : memBytes mem ptr (saveReloc scannerPolicy pad sc).length = saveReloc scannerPolicy pad sc := by
      apply List.ext_getElem
      · simp [memBytes]
      · intro i h1 h2
        have := hmem i (by simpa using h2)
        simp only [List.getElem_map] at this
        simp only [memBytes, List.getElem_map, List.getElem_range]
        exact Fin.ext this
    have es : ∀ rnull tmp, save scannerPolicy pad rnull tmp sc = saveReloc scannerPolicy pad sc := fun _ _ => rfl
    obtain ⟨s', h1, h2, h3, -⟩ := C36_mmap_saved (null := null') (rnull := null') (tmp := 0) (pad := pad) scanner_typedef rfl v (C35_storable_compiled hc) e
      (mem := mem) (ptr := ptr) (size := (saveReloc scannerPolicy pad sc).length) hp8 hps (by rw [es]; exact hm) (by rw [es])
    unfold validator
    dsimp only
    rw [Nat.mod_eq_of_lt h32, h1]
    dsimp only
    rw [C71_words hw]
    suffices ef : ws.flatMap (fun w => (if matched isa at_ s' w then [] else complaint) ++ prompt) =
        ws.flatMap (fun w => (if IsEmail w then [] else text "Invalid email, try once more\n") ++ text "Enter email: ") by rw [ef]; rfl
    refine List.flatMap_congr fun w hx => ?_
    have hub : ∀ c ∈ w, c < 256 := fun c hc => hi c ((words_spec hw w hx).2 c hc)
    have key : matched isa at_ s' w = true ↔ IsEmail w := by
      rw [matched_iff hisa hat h3 (h2.recognizes r) hub, hL]
      show BeginMark :: w ++ [EndMark] ∈ emailTree.den .ascii ↔ _
      rw [email_language]
      constructor
      · rintro ⟨m, e, h⟩
        have : w = m := by simpa [BeginMark, EndMark] using e
        rwa [this]
      · intro h; exact ⟨w, rfl, h⟩
    by_cases hl : IsEmail w
    · rw [if_pos (key.2 hl), if_pos hl]; rfl
    · rw [if_neg (fun h' => hl (key.1 h')), if_neg hl]; rfl

/-- `a.b-c@x-1.example.org` is valid, `a@b` and `A@b.cd` are not. -/
theorem C73_case : IsEmail (text "a.b-c@x-1.example.org") ∧ ¬ IsEmail (text "a@b") ∧ ¬ IsEmail (text "A@b.cd") ∧ ∃ null addr, Allocates null addr := by
  refine ⟨⟨text "a.b-c", text "x-1.example.", text "org", rfl, by decide, ?_, ?_, by decide, ?_⟩, ?_, ?_, ?_⟩
  · unfold NameChar HostChar SmallLetter; decide
  · exact .more (l := text "x-1") (s := text "example.") (by decide) (by unfold HostChar SmallLetter; decide) (.one (l := text "example") (by decide) (by unfold HostChar SmallLetter; decide))
  · unfold SmallLetter; decide
  · rintro ⟨n, l, t, e, -, -, h, -⟩
    have : 46 ∈ text "a@b" := by
      rw [e]
      cases h <;> simp
    exact absurd this (by decide)
  · rintro ⟨n, l, t, e, h1, h2, -⟩
    cases n with
    | nil => exact h1 rfl
    | cons c n =>
      have hc := h2 c (by simp)
      have : 65 = c := by
        have := congrArg List.head? e
        simpa [text] using this
      unfold NameChar HostChar SmallLetter at hc
      omega
  · obtain ⟨s, hs⟩ := empty_scanner_exists scannerPolicy 4096
    exact ⟨s, fun n => 8192, by simp, by intro n; norm_num, 4096, by norm_num, by norm_num, hs⟩

end Pire.Props
