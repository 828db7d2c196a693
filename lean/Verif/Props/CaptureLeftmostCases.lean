import Verif.Props.CaptureLeftmost
import Verif.Props.CaptureGroupCases
import Verif.Proofs.CaptureCongr

/-!
# C59: cases, and what goes wrong
-/

namespace Pire
namespace Props

open Spec Pire.Lex Parse Enc Unidata Loaded Capture

/-! ### Computing with few letters -/

/-- The transitions with the letters of `C`. -/
def smallVec (g : Fsm) (C : List Nat) : List (List (Nat × Nat)) :=
  (List.range (g.size * C.length)).map fun i => (elems (g.dst (i / C.length) (C.getD (i % C.length) 0))).map fun d => (d, g.output (i / C.length) d)

/-- A table with the letters of `C` only. -/
def smallTable (n start : Nat) (finals : List Bool) (C : List Nat) (vec : List (List (Nat × Nat))) : Table :=
  ⟨n, C.length, start, finals, (List.range 264).map fun c => C.idxOf c, vec⟩

theorem small_agree {g : Fsm} (h : SlowReady g) {C : List Nat} (hC : ∀ c ∈ C, c < 264) (h1 : 257 ∈ C) (h2 : 258 ∈ C) (h3 : 259 ∈ C) :
    Agree (· ∈ C) (slowCompile g) (smallTable g.size g.initial (slowCompile g).finals C (smallVec g C)) := by
  obtain ⟨e1, e2⟩ := slowCompile_exact h.wf h.small h.outs
  have hpos : 0 < C.length := List.length_pos_of_mem h1
  refine ⟨rfl, rfl, ?_, fun _ => rfl, h1, h2, h3⟩
  intro q c hc
  have hi := List.idxOf_lt_length_iff.2 hc
  have hl : ((List.range 264).map fun c => C.idxOf c)[c]? = some (C.idxOf c) := by
    rw [List.getElem?_map, List.getElem?_range (hC c hc)]; rfl
  have h4 : (smallTable g.size g.initial (slowCompile g).finals C (smallVec g C)).nextStates q c = (smallVec g C)[q * C.length + C.idxOf c]? := by
    show (((List.range 264).map fun c => C.idxOf c)[c]?).bind _ = _
    rw [hl]; rfl
  rw [h4]
  unfold smallVec
  by_cases hq : q < g.size
  · have hlt : q * C.length + C.idxOf c < g.size * C.length := by
      have : (q + 1) * C.length ≤ g.size * C.length := Nat.mul_le_mul_right _ hq
      rw [Nat.succ_mul] at this; omega
    rw [List.getElem?_map, List.getElem?_range hlt, Option.map_some, Nat.mul_comm q, Nat.mul_add_div hpos, Nat.div_eq_of_lt hi, Nat.mul_add_mod, Nat.mod_eq_of_lt hi,
      List.getD_eq_getElem?_getD, List.getElem?_idxOf hc]
    exact e1 q hq c (hC c hc)
  · rw [List.getElem?_map, List.getElem?_eq_none]
    · exact e2 q (by omega) c
    · rw [List.length_range]
      have := Nat.mul_le_mul_right C.length (show g.size ≤ q by omega)
      omega

/-! ### The hypotheses are met -/

theorem lazy_pattern : CPattern noOptions.flavor lazyText lazyTree.spell [true] := by
  rw [noOptions_flavor]
  exact .other (written_letter (c := 120) (by omega) (by omega)) nofun (.other .opn nofun (.other (written_letter (c := 97) (by omega) (by omega)) nofun
    (.lazy .star (.other .cls' nofun (.other (written_letter (c := 98) (by omega) (by omega)) nofun .nil)))))

/-- `x(a*?)b` and the text `cxbxb`; also with `a*`, as the repetition is not at the beginning. -/
theorem C59_case : ∃ f, Searches noOptions .latin1 lazyText 1 lazyTree f f.surround ∧ CPattern noOptions.flavor lazyText lazyTree.spell [true] ∧
    lazyTree.markless = true ∧ lazyTree.skips [true] = false ∧ lazyTree.skips [false] = false ∧ [120, 98] ∈ lazyTree.den Codec.ascii ∧
    [120, 98] <:+: [99, 120, 98, 120, 98] := by
  obtain ⟨f, hf, -⟩ := C58_case
  refine ⟨f, hf, lazy_pattern, by decide, by decide, by decide, ?_, ⟨[99], [120, 98], rfl⟩⟩
  show _ ∈ ((1 : Language Nat) * (ch 120).den Codec.ascii) * (1 * repeated _ 0 none) * (ch 98).den Codec.ascii
  rw [ch_den (by omega), ch_den (by omega), one_mul, one_mul]
  refine Language.mem_mul.2 ⟨[120], Language.mem_mul.2 ⟨[120], rfl, [], ?_, rfl⟩, [98], rfl, rfl⟩
  exact ⟨0, by omega, nofun, by rw [pow_zero]; exact Language.nil_mem_one⟩

/-! ### A greedy repetition at the beginning -/

/-- `a*(b)` -/
def skipTree : Alt := wrap (.snoc (.snoc .nil (.rep (.letters {97} false) 0 none)) (.one (.group (wrap (.snoc .nil (ch 98))))))

/-- Its text. -/
def skipText : List Nat := [97, 42, 40, 98, 41]

theorem skip_pattern : CPattern noOptions.flavor skipText skipTree.spell [false] := by
  rw [noOptions_flavor]
  exact .other (written_letter (c := 97) (by omega) (by omega)) nofun (.greedy .star (by decide) (.other .opn nofun
    (.other (written_letter (c := 98) (by omega) (by omega)) nofun (.other .cls' nofun .nil))))

theorem skip_ok : skipTree.Ok := by
  refine ⟨⟨trivial, ⟨ch_ok (c := 97) (by omega), nofun, nofun⟩, rfl⟩, ⟨trivial, ch_ok (c := 98) (by omega), rfl⟩, rfl⟩

/-- The letters that are used. -/
def skipLetters : List Nat := [98, 257, 258, 259]

/-- The transitions. -/
def skipVec : List (List (Nat × Nat)) := [[], [(1, 0), (4, 0)], [], [], [], [], [], [], [], [(1, 0), (4, 0)], [], [], [], [(1, 0), (4, 0)], [], [], [], [(5, 4)],
  [], [], [], [(6, 1)], [], [], [(7, 0)], [], [], [], [], [(9, 2)], [], [], [], [(6, 1)], [], [], [], [(11, 0)], [], [], [(10, 0)], [(0, 0), (10, 0)], [(10, 0)],
  [(10, 0)], [(11, 0)], [(11, 0)], [(11, 0)], [(11, 0)]]

/-- The final states. -/
def skipFinals : List Bool := [false, false, false, false, false, false, false, false, false, false, false, true]

/-- The scanner. -/
def skipTable : Table := smallTable 12 10 skipFinals skipLetters skipVec

/-- The parser gives this automaton. -/
def skipParsed (f : Fsm) : Bool := decide (f.surround.size = 12) && decide (f.surround.initial = 10) && decide ((slowCompile f.surround).finals = skipFinals) &&
  decide (smallVec f.surround skipLetters = skipVec)

/-- What is reported. -/
def reported (t : Table) (w : List Nat) : Option (Bool × Option (Option Nat × Option Nat)) :=
  (t.run w).bind fun st => (t.getCapture st).map fun r => (r.1, r.2.map fun x => (opt x.beg, opt x.fin))

/-- Defect: without the condition the captured group need not be in a leftmost occurrence.  The pattern `a*(b)` occurs in `bb` at 0, `[0, 1)`, but the group that
is captured is `[1, 2)`: no occurrence that begins at 0 contains it. -/
theorem C59_skips_witness : ∃ f st x, Searches noOptions .latin1 skipText 1 skipTree f f.surround ∧ skipTree.markless = true ∧ skipTree.skips [false] = true ∧
    [98] ∈ skipTree.den Codec.ascii ∧ [98, 98] ∉ skipTree.den Codec.ascii ∧
    (slowCompile f.surround).run [98, 98] = some st ∧ (slowCompile f.surround).getCapture st = some (true, some x) ∧ opt x.beg = some 1 ∧ opt x.fin = some 2 := by
  rcases C58_language ⟨_, skip_pattern⟩ skip_ok rfl .latin1 1 with ⟨f, hf, -, -⟩ | ⟨h, -⟩
  · have hp : skipParsed f = true := parsedHas_eq hf (by decide +kernel)
    unfold skipParsed at hp
    simp only [Bool.and_eq_true, decide_eq_true_iff] at hp
    obtain ⟨⟨⟨p1, p2⟩, p3⟩, p4⟩ := hp
    have hS : Searches noOptions .latin1 skipText 1 skipTree f f.surround := ⟨⟨_, skip_pattern⟩, skip_ok, rfl, hf, .inr rfl, by rw [p1]; norm_num⟩
    have hA := small_agree hS.ready (C := skipLetters) (by decide) (by decide) (by decide) (by decide)
    rw [p1, p2, p3, p4] at hA
    have hA : Agree (· ∈ skipLetters) (slowCompile f.surround) skipTable := hA
    have hr : reported skipTable [98, 98] = some (true, some (some 1, some 2)) := by decide +kernel
    unfold reported at hr
    rw [← hA.run [98, 98] (by decide)] at hr
    cases hst : (slowCompile f.surround).run [98, 98] with
    | none => rw [hst] at hr; cases hr
    | some st =>
      rw [hst, Option.bind_some, ← hA.getCapture] at hr
      cases hg : (slowCompile f.surround).getCapture st with
      | none => rw [hg] at hr; cases hr
      | some r =>
        rw [hg, Option.map_some] at hr
        obtain ⟨b, y⟩ := r
        cases y with
        | none => simp at hr
        | some x =>
          simp only [Option.map_some, Option.some.injEq, Prod.mk.injEq] at hr
          obtain ⟨rfl, hx1, hx2⟩ := hr
          have hden : skipTree.den Codec.ascii = repeated (single [97]) 0 none * single [98] := by
            show ((1 : Language Nat) * repeated ((ch 97).den Codec.ascii) 0 none) * (1 * (ch 98).den Codec.ascii) = _
            rw [ch_den (by omega), ch_den (by omega), one_mul, one_mul]
          refine ⟨f, st, x, hS, by decide, by decide, ?_, ?_, hst, hg, hx1, hx2⟩
          · rw [hden]
            exact Language.mem_mul.2 ⟨[], ⟨0, by omega, nofun, by rw [pow_zero]; exact Language.nil_mem_one⟩, [98], rfl, rfl⟩
          · rw [hden, Language.mem_mul]
            rintro ⟨a, ⟨n, -, -, hn⟩, b, hb, he⟩
            obtain rfl : b = [98] := hb
            obtain rfl : a = [98] := by simpa using List.append_cancel_right (show a ++ [98] = [98] ++ [98] from he)
            cases n with
            | zero => rw [pow_zero, Language.mem_one] at hn; cases hn
            | succ n =>
              rw [pow_succ', Language.mem_mul] at hn
              obtain ⟨u, hu, v, -, huv⟩ := hn
              obtain rfl : u = [97] := hu
              simp at huv
  · cases h

end Props
end Pire
