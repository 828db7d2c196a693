import Verif.Props.CapturePreferred
import Verif.Props.CaptureLeftmostCases

/-!
# C60: cases, and patterns with alternatives
-/

namespace Pire
namespace Props

open Spec Pire.Lex Parse Enc Unidata Loaded Capture

/-- `x(a*)a*`, the first repetition greedy or lazy. -/
def twoTree : Alt := wrap (.snoc (.snoc (.snoc .nil (ch 120)) (.one (.group (wrap (.snoc .nil (.rep (.letters {97} false) 0 none))))))
  (.rep (.letters {97} false) 0 none))

/-- Its text. -/
def twoText : Bool → List Nat
  | false => [120, 40, 97, 42, 41, 97, 42]
  | true => [120, 40, 97, 42, 63, 41, 97, 42]

theorem two_pattern (lz : Bool) : CPattern noOptions.flavor (twoText lz) twoTree.spell [lz, false] := by
  rw [noOptions_flavor]
  cases lz with
  | false =>
    exact .other (written_letter (c := 120) (by omega) (by omega)) nofun (.other .opn nofun (.other (written_letter (c := 97) (by omega) (by omega)) nofun
      (.greedy .star (by decide) (.other .cls' nofun (.other (written_letter (c := 97) (by omega) (by omega)) nofun (.greedy .star (by decide) .nil))))))
  | true =>
    exact .other (written_letter (c := 120) (by omega) (by omega)) nofun (.other .opn nofun (.other (written_letter (c := 97) (by omega) (by omega)) nofun
      (.lazy .star (.other .cls' nofun (.other (written_letter (c := 97) (by omega) (by omega)) nofun (.greedy .star (by decide) .nil))))))

theorem two_ok : twoTree.Ok := by
  refine ⟨⟨⟨trivial, ch_ok (by omega), rfl⟩, ⟨trivial, ⟨ch_ok (c := 97) (by omega), nofun, nofun⟩, rfl⟩, rfl⟩, ⟨ch_ok (c := 97) (by omega), nofun, nofun⟩, rfl⟩

/-- Its items. -/
def twoItems (lz : Bool) : List Item := [⟨{120}, 1, some 1, false⟩, ⟨{97}, 0, none, lz⟩, ⟨{97}, 0, none, false⟩]

theorem two_items (lz : Bool) : twoTree.items [lz, false] = some (twoItems lz) := by
  have hb : ∀ c, c ≤ 122 → (Term.letters {c} false).bytes = some {c} := by
    intro c hc
    have e : ({c} : Finset Nat).filter (· < 128) = {c} := by
      ext x; rw [Finset.mem_filter, Finset.mem_singleton]; omega
    rw [Spec.Term.bytes, e, if_pos (Finset.singleton_nonempty c)]
  simp only [twoTree, wrap, ch, Alt.items, Conj.items, Neg.items, Cat.items, Iter.items, Term.items, hb 97 (by omega), hb 120 (by omega)]
  cases lz <;> rfl

theorem two_search_small (lz : Bool) : ∃ f, Searches noOptions .latin1 (twoText lz) 1 twoTree f f.surround ∧ f.surround.size ≤ 102 := by
  rcases C58_language ⟨_, two_pattern lz⟩ two_ok rfl .latin1 1 with ⟨f, hf, -⟩ | ⟨h, -⟩
  · have hs : parsedSize 1 (twoText lz) ≤ 100 := by cases lz <;> decide +kernel
    have hs' := parsedSize_eq hf
    have hz : f.surround.size ≤ 102 := by
      unfold Fsm.surround
      rw [Fsm.appendAnything_size, Fsm.prependAnything_size, ← hs']
      exact Nat.add_le_add_right (Nat.add_le_add_right hs 1) 1
    exact ⟨f, ⟨⟨_, two_pattern lz⟩, two_ok, rfl, hf, .inr rfl, le_trans hz (by norm_num)⟩, hz⟩
  · cases h

theorem two_search (lz : Bool) : ∃ f, Searches noOptions .latin1 (twoText lz) 1 twoTree f f.surround := by
  obtain ⟨f, hf, -⟩ := two_search_small lz
  exact ⟨f, hf⟩

/-- The hypotheses of `C60_preferred` are met, and what it says about a text: in `cxaax`, `x(a*)a*` captures `[2, 4)` and `x(a*?)a*` captures `[2, 2)`. -/
theorem C60_case (lz : Bool) : ∃ f, Searches noOptions .latin1 (twoText lz) 1 twoTree f f.surround ∧ twoTree.items [lz, false] = some (twoItems lz) ∧
    twoTree.skips [lz, false] = false ∧ Starts (twoItems lz) [1, 1, 1] ([99, 120, 97, 97, 120].drop 1) ∧
    ∃ st y, (slowCompile f.surround).run [99, 120, 97, 97, 120] = some st ∧ (slowCompile f.surround).getCapture st = some (true, some y) ∧
      opt y.beg = some 2 ∧ opt y.fin = some (if lz then 2 else 4) := by
  obtain ⟨f, hf⟩ := two_search lz
  have hk : twoTree.skips [lz, false] = false := by cases lz <;> decide
  have h0 : ∀ n m, n + m ≤ 2 → Starts (twoItems lz) [1, n, m] ([99, 120, 97, 97, 120].drop 1) := by
    intro n m h
    obtain ⟨rfl, rfl⟩ | ⟨rfl, rfl⟩ | ⟨rfl, rfl⟩ | ⟨rfl, rfl⟩ | ⟨rfl, rfl⟩ | ⟨rfl, rfl⟩ : (n = 0 ∧ m = 0) ∨ (n = 0 ∧ m = 1) ∨ (n = 0 ∧ m = 2) ∨ (n = 1 ∧ m = 0) ∨ (n = 1 ∧ m = 1) ∨ (n = 2 ∧ m = 0) := by omega
    all_goals simp [twoItems, Spec.Starts, Item.allows]
  refine ⟨f, hf, two_items lz, hk, h0 1 1 (by omega), ?_⟩
  obtain ⟨st, y, i, ns, r1, r2, hi, hs, hmin, hbest, r3, r4⟩ := C60_preferred hf (two_pattern lz) (two_items lz) hk (a := wrap (.snoc .nil (.rep (.letters {97} false) 0 none))) rfl
    (w := [99, 120, 97, 97, 120]) (by decide) (by decide) (i₀ := 1) (by decide) (h0 1 1 (by omega))
  have hi1 := hmin 1 (by decide) _ (h0 1 1 (by omega))
  obtain ⟨n1, n2, n3, rfl⟩ : ∃ n1 n2 n3, ns = [n1, n2, n3] := by
    have hl := hs.length
    match ns, hl with
    | [a, b, c], _ => exact ⟨a, b, c, rfl⟩
  have hn1 : n1 = 1 := by
    have := hs.1.1
    have := hs.1.2 1 rfl
    simp only [twoItems] at *
    omega
  subst hn1
  obtain rfl : i = 1 := by
    rcases (show i = 0 ∨ i = 1 by omega) with rfl | rfl
    · have := hs.2.2.1 99 (by simp)
      simp [twoItems] at this
    · rfl
  refine ⟨st, y, r1, r2, r3, ?_⟩
  rw [r4]
  change some (1 + (1 + (n2 + 0))) = _
  cases lz with
  | true =>
    by_cases hz : n2 = 0
    · rw [hz]; rfl
    · rcases hbest [1, 0, 2] (h0 0 2 (by omega)) (by simp; omega) with h | ⟨-, h | ⟨h, -⟩⟩
      · exact absurd h (by simp [twoItems])
      · exact absurd h (by simp [twoItems])
      · exact absurd h hz
  | false =>
    have hle := hs.sum_le
    have h5 : n2 ≤ 2 := by
      by_contra hc
      have := hs.2.2.2.2.2.1 120 (by
        have e : ([99, 120, 97, 97, 120].drop 1).drop 1 = [97, 97, 120] := rfl
        rw [e]
        obtain ⟨m, rfl⟩ : ∃ m, n2 = m + 3 := ⟨n2 - 3, by omega⟩
        simp)
      simp at this
    by_cases hz : n2 = 2
    · rw [hz]; rfl
    · rcases hbest [1, 2, 0] (h0 2 0 (by omega)) (by simp; omega) with h | ⟨-, h | ⟨h, -⟩⟩
      · exact absurd h (by simp [twoItems])
      · have h : 2 < n2 := by simpa [twoItems] using h
        omega
      · exact absurd h hz

/-! ### Alternatives -/

/-- `a(b*|a)a*` -/
def altTree : Alt := wrap (.snoc (.snoc (.snoc .nil (ch 97)) (.one (.group (.or (wrap (.snoc .nil (.rep (.letters {98} false) 0 none))) (.one (.one (.snoc .nil (ch 97))))))))
  (.rep (.letters {97} false) 0 none))

/-- Its text. -/
def altText : List Nat := [97, 40, 98, 42, 124, 97, 41, 97, 42]

theorem alt_pattern : CPattern noOptions.flavor altText altTree.spell [false, false] := by
  rw [noOptions_flavor]
  exact .other (written_letter (c := 97) (by omega) (by omega)) nofun (.other .opn nofun (.other (written_letter (c := 98) (by omega) (by omega)) nofun
    (.greedy .star (by decide) (.other .bar nofun (.other (written_letter (c := 97) (by omega) (by omega)) nofun (.other .cls' nofun
      (.other (written_letter (c := 97) (by omega) (by omega)) nofun (.greedy .star (by decide) .nil))))))))

theorem alt_ok : altTree.Ok := by
  refine ⟨⟨⟨trivial, ch_ok (by omega), rfl⟩, ⟨⟨trivial, ⟨ch_ok (c := 98) (by omega), nofun, nofun⟩, rfl⟩, trivial, ch_ok (c := 97) (by omega), rfl⟩, rfl⟩,
    ⟨ch_ok (c := 97) (by omega), nofun, nofun⟩, rfl⟩

/-- The letters that are used. -/
def altLetters : List Nat := [97, 257, 258, 259]

/-- The transitions. -/
def altVec : List (List (Nat × Nat)) := [[(1, 0)], [], [], [], [], [(10, 1)], [], [], [], [(3, 0), (6, 0)], [], [], [], [], [], [], [], [(3, 0), (6, 0)], [], [], [],
  [(3, 0), (6, 0)], [], [], [], [(7, 4)], [], [], [], [(12, 2)], [], [], [(9, 0)], [], [], [], [], [(12, 2)], [], [], [], [(2, 0), (8, 0)], [], [], [], [(10, 1)], [],
  [], [], [(13, 0), (16, 0)], [], [], [(14, 0)], [], [], [], [], [(13, 0), (16, 0)], [], [], [], [(13, 0), (16, 0)], [], [], [], [(17, 4)], [], [], [], [(19, 0)], [],
  [], [(18, 0)], [(0, 0), (18, 0)], [(18, 0)], [(18, 0)], [(19, 0)], [(19, 0)], [(19, 0)], [(19, 0)]]

/-- The final states. -/
def altFinals : List Bool := List.replicate 19 false ++ [true]

/-- The scanner. -/
def altTable : Table := smallTable 20 18 altFinals altLetters altVec

/-- The parser gives this automaton. -/
def altParsed (f : Fsm) : Bool := decide (f.surround.size = 20) && decide (f.surround.initial = 18) && decide ((slowCompile f.surround).finals = altFinals) &&
  decide (smallVec f.surround altLetters = altVec)

/-- With alternatives the scanner need not take the first one that leads to a match: in `aa`, `a(b*|a)a*` matches with `b*` empty and the last `a*` taking the second
letter, but the group that is captured is `[1, 2)`, the second alternative. -/
theorem C60_alternatives_witness : ∃ f st y, Searches noOptions .latin1 altText 1 altTree f f.surround ∧ altTree.skips [false, false] = false ∧
    altTree.items [false, false] = none ∧ [] ∈ repeated (single [98]) 0 none ∧ [97] ∉ repeated (single [98]) 0 none ∧
    (slowCompile f.surround).run [97, 97] = some st ∧ (slowCompile f.surround).getCapture st = some (true, some y) ∧ opt y.beg = some 1 ∧ opt y.fin = some 2 := by
  rcases C58_language ⟨_, alt_pattern⟩ alt_ok rfl .latin1 1 with ⟨f, hf, -, -⟩ | ⟨h, -⟩
  · have hp : altParsed f = true := parsedHas_eq hf (by decide +kernel)
    unfold altParsed at hp
    simp only [Bool.and_eq_true, decide_eq_true_iff] at hp
    obtain ⟨⟨⟨p1, p2⟩, p3⟩, p4⟩ := hp
    have hS : Searches noOptions .latin1 altText 1 altTree f f.surround := ⟨⟨_, alt_pattern⟩, alt_ok, rfl, hf, .inr rfl, by rw [p1]; norm_num⟩
    have hA := small_agree hS.ready (C := altLetters) (by decide) (by decide) (by decide) (by decide)
    rw [p1, p2, p3, p4] at hA
    have hA : Agree (· ∈ altLetters) (slowCompile f.surround) altTable := hA
    have hr : reported altTable [97, 97] = some (true, some (some 1, some 2)) := by decide +kernel
    unfold reported at hr
    rw [← hA.run [97, 97] (by decide)] at hr
    cases hst : (slowCompile f.surround).run [97, 97] with
    | none => rw [hst] at hr; cases hr
    | some st =>
      rw [hst, Option.bind_some, ← hA.getCapture] at hr
      cases hg : (slowCompile f.surround).getCapture st with
      | none => rw [hg] at hr; cases hr
      | some r =>
        rw [hg, Option.map_some] at hr
        obtain ⟨b, y⟩ := r
        cases y with
        | none => simp at hr
        | some x =>
          simp only [Option.map_some, Option.some.injEq, Prod.mk.injEq] at hr
          obtain ⟨rfl, hx1, hx2⟩ := hr
          refine ⟨f, st, x, hS, by decide, ?_, ⟨0, by omega, nofun, by rw [pow_zero]; exact Language.nil_mem_one⟩, ?_, hst, hg, hx1, hx2⟩
          · have e : (Term.group (.or (wrap (.snoc .nil (.rep (.letters {98} false) 0 none))) (.one (.one (.snoc .nil (ch 97)))))).items [false, false] = none := rfl
            unfold altTree wrap
            rw [Alt.items, Conj.items, Neg.items, Cat.items, Cat.items]
            have e2 : ∀ (x : Option (List Item)) (y : List Item → Option (List Item)), (x.bind fun a => (none : Option (List Item)).bind fun b => y (a ++ b)) = none := by
              intro x y; cases x <;> rfl
            have e3 : ∀ (x : Option (List Item)), (do let a ← x; let b ← (none : Option (List Item)); return a ++ b) = none := by
              intro x; cases x <;> rfl
            have e4 : ((Cat.snoc .nil (ch 97)).items [false, false] >>= fun x =>
              (Iter.one (Term.group (.or (wrap (.snoc .nil (.rep (.letters {98} false) 0 none))) (.one (.one (.snoc .nil (ch 97))))))).items ([false, false].drop (Cat.snoc .nil (ch 97)).counts) >>= fun y => some (x ++ y)) = none := e3 _
            exact (congrArg (fun z : Option (List Item) => z.bind _) e4).trans rfl
          · rintro ⟨n, -, -, hn⟩
            cases n with
            | zero => rw [pow_zero, Language.mem_one] at hn; cases hn
            | succ n =>
              rw [pow_succ', Language.mem_mul] at hn
              obtain ⟨u, hu, v, -, huv⟩ := hn
              obtain rfl : u = [98] := hu
              simp at huv
  · cases h

end Props
end Pire
