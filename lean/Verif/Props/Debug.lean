import Verif.Model.RunDebug
import Verif.Props.Running

/-!
# The debug build runs as the release build does: properties C28, C31, C32
-/

namespace Pire
namespace Props

open Spec Scn
variable {σ α : Type}

theorem debug_eq (sc : Scn σ α) {ρ : Type} (pred : Pred σ ρ) (mem : Mem) (b e : Nat) (st : σ) (acc : ρ) (h : pred st b acc = (acc, false)) (hbe : b ≤ e) :
    doRunDebug sc pred mem b e st acc = doRun (runAligned sc pred mem) sc pred mem b e st acc := by
  rw [doRun_eq (fun b e st acc h1 h2 h3 => runAligned_eq sc _ mem h1 (by omega) st acc) hbe]
  unfold doRunDebug
  rw [h]
  dsimp only
  rw [if_neg Bool.false_ne_true, safeLoop_eq]

/-- `Run`. -/
theorem C28_debug_build (sc : Scn σ α) (mem : Mem) {b e : Nat} (hbe : b ≤ e) (st : σ) : sc.runDebug mem b e st = sc.run mem b e st := by
  rw [run_eq sc mem hbe]
  unfold runDebug
  rw [debug_eq sc runPred mem b e st () rfl hbe, doRun_eq (fun b e st acc h1 h2 h3 => runAligned_eq sc _ mem h1 (by omega) st acc) hbe]
  generalize bytesAt mem b (e - b) = l
  have : ∀ (l : List Nat) (p : Nat) (st : σ), (naive sc runPred l p st ()).st = sc.after st l := by
    intro l
    induction l with
    | nil => intros; rfl
    | cons c l ih => intro p st; exact ih (p + 1) (sc.step st c)
  exact this l b st

theorem longestWith_eq (sc : Scn σ α) (D : Pred σ (Option Nat) → Nat → Nat → σ → Option Nat → σ × Option Nat) (b e : Nat) (tb te : Bool)
    {r : σ × Option Nat} (h : D (longestPrefixPred sc) b e (startState sc BeginMark tb) (if sc.final (startState sc BeginMark tb) then some b else none) = r) :
    longestPrefixWith D sc b e tb te = if te then if sc.final (sc.step r.1 EndMark) then some e else r.2 else r.2 := by
  subst h
  rfl

theorem shortestWith_eq (sc : Scn σ α) (D : Pred σ (Option Nat) → Nat → Nat → σ → Option Nat → σ × Option Nat) (b e : Nat) (tb te : Bool)
    {r : σ × Option Nat} (h : D (shortestPrefixPred sc) b e (startState sc BeginMark tb) none = r) :
    shortestPrefixWith D sc b e tb te = if sc.final (startState sc BeginMark tb) then some b else
      if te then if sc.final (sc.step r.1 EndMark) && r.2.isNone then some e else r.2 else r.2 := by
  subst h
  rfl

/-- `LongestPrefix`: the debug build returns what the release build returns (for scanners without shortcuts; where those cut the prefix short, `C31_exit_masks_too_short`,
the debug build gives the longest one, `C31_debug_longest_prefix`). -/
theorem C31_debug_build (sc : Scn σ α) (V : σ → Prop) (hc : Closed sc V) (hd : DeadSound sc V) (hv : V sc.initial) (mem : Mem) {b e : Nat} (hbe : b ≤ e) (tb te : Bool) :
    sc.longestPrefixDebug mem b e tb te = sc.longestPrefix mem b e tb te := by
  have hv0 : V (startState sc BeginMark tb) := by
    unfold startState
    split
    · exact hc _ _ hv (by decide)
    · exact hv
  by_cases hx : sc.dead (startState sc BeginMark tb) = true
  · have hspec := C31_longest_prefix sc V hc hd hv mem hbe tb te
    have nf : ∀ w : List Nat, (∀ c ∈ w, IsLetter c) → sc.final (sc.after (startState sc BeginMark tb) w) = false := hd _ hv0 hx
    have hb : ∀ c ∈ bytesAt mem b (e - b), IsLetter c := (bb mem b (e - b)).lt
    have hrel : sc.longestPrefix mem b e tb te = none := by
      unfold longestSpec at hspec
      rw [if_neg] at hspec
      · obtain ⟨k, h1, h2⟩ := hspec
        rw [h2]
        cases k with
        | none => rfl
        | some k =>
          exfalso
          have h3 := h1.1
          have h4 := nf ((bytesAt mem b (e - b)).take k) fun c hc => hb c (List.mem_of_mem_take hc)
          first
            | rw [h3] at h4; cases h4
            | rw [h1.2.1] at h4; cases h4
      · rintro ⟨-, h⟩
        rw [nf _ fun c hc => ?_] at h
        · cases h
        · rw [List.mem_append, List.mem_singleton] at hc
          rcases hc with hc | rfl
          · exact hb c hc
          · decide
    rw [hrel]
    have h0 : sc.final (startState sc BeginMark tb) = false := nf [] (by simp)
    have h1 : sc.final (sc.step (startState sc BeginMark tb) EndMark) = false := nf [EndMark] (by simp; decide)
    have e1 : doRunDebug sc (longestPrefixPred sc) mem b e (startState sc BeginMark tb) none = (startState sc BeginMark tb, none) := by
      unfold doRunDebug longestPrefixPred
      rw [h0, hx]
      rfl
    unfold longestPrefixDebug
    rw [longestWith_eq sc _ b e tb te (r := (startState sc BeginMark tb, none)) (by rw [h0, if_neg Bool.false_ne_true]; exact e1), h1]
    simp
  · rw [Bool.not_eq_true] at hx
    have hp : longestPrefixPred sc (startState sc BeginMark tb) b (if sc.final (startState sc BeginMark tb) then some b else none) = ((if sc.final (startState sc BeginMark tb) then some b else none), false) := by
      unfold longestPrefixPred
      rw [hx]
      split <;> rfl
    unfold longestPrefixDebug longestPrefix
    rw [longestWith_eq sc _ b e tb te (debug_eq sc _ mem b e _ _ hp hbe), longestWith_eq sc _ b e tb te rfl]

/-- ... in the debug build always the longest accepted prefix. -/
theorem C31_debug_longest_prefix (sc : Scn σ α) (V : σ → Prop) (hc : Closed sc V) (hd : DeadSound sc V) (hv : V sc.initial) (mem : Mem) {b e : Nat} (hbe : b ≤ e)
    (tb te : Bool) : longestSpec sc (bytesAt mem b (e - b)) tb te b (sc.longestPrefixDebug mem b e tb te) := by
  rw [C31_debug_build sc V hc hd hv mem hbe tb te]
  exact C31_longest_prefix sc V hc hd hv mem hbe tb te

/-- `ShortestPrefix`: the debug build returns what the release build returns. -/
theorem C32_debug_build (sc : Scn σ α) (V : σ → Prop) (hc : Closed sc V) (hd : DeadSound sc V) (hv : V sc.initial) (mem : Mem) {b e : Nat} (hbe : b ≤ e) (tb te : Bool) :
    sc.shortestPrefixDebug mem b e tb te = sc.shortestPrefix mem b e tb te := by
  have hv0 : V (startState sc BeginMark tb) := by
    unfold startState
    split
    · exact hc _ _ hv (by decide)
    · exact hv
  by_cases h0 : sc.final (startState sc BeginMark tb) = true
  · unfold shortestPrefixDebug shortestPrefix
    rw [shortestWith_eq sc _ b e tb te rfl, shortestWith_eq sc _ b e tb te rfl, if_pos h0, if_pos h0]
  rw [Bool.not_eq_true] at h0
  by_cases hx : sc.dead (startState sc BeginMark tb) = true
  · have hspec := C32_shortest_prefix sc V hc hd hv mem hbe tb te
    have nf : ∀ w : List Nat, (∀ c ∈ w, IsLetter c) → sc.final (sc.after (startState sc BeginMark tb) w) = false := hd _ hv0 hx
    have hb : ∀ c ∈ bytesAt mem b (e - b), IsLetter c := (bb mem b (e - b)).lt
    have hrel : sc.shortestPrefix mem b e tb te = none := by
      obtain ⟨k, h1, h2⟩ := hspec
      rw [h2]
      cases k with
      | none =>
        dsimp only
        rw [if_neg]
        rintro ⟨-, h⟩
        rw [nf _ fun c hc => ?_] at h
        · cases h
        · rw [List.mem_append, List.mem_singleton] at hc
          rcases hc with hc | rfl
          · exact hb c hc
          · decide
      | some k =>
        exfalso
        have h4 := nf ((bytesAt mem b (e - b)).take k) fun c hc => hb c (List.mem_of_mem_take hc)
        rw [h1.2.1] at h4
        cases h4
    rw [hrel]
    have h1 : sc.final (sc.step (startState sc BeginMark tb) EndMark) = false := nf [EndMark] (by simp; decide)
    have e1 : doRunDebug sc (shortestPrefixPred sc) mem b e (startState sc BeginMark tb) none = (startState sc BeginMark tb, none) := by
      unfold doRunDebug shortestPrefixPred
      rw [h0, hx]
      rfl
    unfold shortestPrefixDebug
    rw [shortestWith_eq sc _ b e tb te e1, h0, h1]
    simp
  · rw [Bool.not_eq_true] at hx
    have hp : shortestPrefixPred sc (startState sc BeginMark tb) b none = (none, false) := by
      unfold shortestPrefixPred
      rw [h0, hx]
      rfl
    unfold shortestPrefixDebug shortestPrefix
    rw [shortestWith_eq sc _ b e tb te (debug_eq sc _ mem b e _ _ hp hbe), shortestWith_eq sc _ b e tb te rfl]

/-- The hypotheses are met by the example of C29. -/
example (mem : Mem) (e : Nat) (h : 5 ≤ e) : demo.longestPrefixDebug mem 5 e true true = demo.longestPrefix mem 5 e true true ∧
    demo.shortestPrefixDebug mem 5 e true true = demo.shortestPrefix mem 5 e true true :=
  ⟨C31_debug_build demo (· ≤ 3) demo_closed demo_deadSound (by decide) mem h true true, C32_debug_build demo (· ≤ 3) demo_closed demo_deadSound (by decide) mem h true true⟩

end Props
end Pire
