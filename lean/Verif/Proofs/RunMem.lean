import Verif.Spec.Running

/-!
# Proofs about `run.h`: every way of running equals the naive left-to-right loop
-/

namespace Pire
namespace Scn
variable {σ α ρ : Type}

@[simp] theorem bytesAt_length (mem : Mem) (b n : Nat) : (bytesAt mem b n).length = n := by
  induction n generalizing b with
  | zero => rfl
  | succ n ih => simp [bytesAt, ih]

theorem bytesAt_add (mem : Mem) (b m n : Nat) : bytesAt mem b (m + n) = bytesAt mem b m ++ bytesAt mem (b + m) n := by
  induction m generalizing b with
  | zero => simp [bytesAt]
  | succ m ih =>
    rw [show m + 1 + n = (m + n) + 1 by omega, bytesAt, ih, bytesAt]
    simp [Nat.add_assoc, Nat.add_comm 1 m]

theorem bytesAt_lt {mem : Mem} {b n c : Nat} (h : c ∈ bytesAt mem b n) : c < 256 := by
  induction n generalizing b with
  | zero => simp [bytesAt] at h
  | succ n ih =>
    rw [bytesAt, List.mem_cons] at h
    rcases h with rfl | h
    · exact (mem b).isLt
    · exact ih h

/-- The naive loop: read a byte, step, ask the predicate. -/
def naive (sc : Scn σ α) (pred : Pred σ ρ) : List Nat → Nat → σ → ρ → Res σ ρ
  | [], _, st, acc => ⟨st, acc, false⟩
  | c :: cs, ptr, st, acc =>
    let st := sc.step st c
    let r := pred st (ptr + 1) acc
    if r.2 then ⟨st, r.1, true⟩ else naive sc pred cs (ptr + 1) st r.1

/-- Continue with `k` unless stopped. -/
def Res.andThen (r : Res σ ρ) (k : σ → ρ → Res σ ρ) : Res σ ρ := if r.stop then r else k r.st r.acc

theorem naive_append (sc : Scn σ α) (pred : Pred σ ρ) (u v : List Nat) (ptr : Nat) (st : σ) (acc : ρ) :
    naive sc pred (u ++ v) ptr st acc =
      (naive sc pred u ptr st acc).andThen (naive sc pred v (ptr + u.length)) := by
  induction u generalizing ptr st acc with
  | nil => simp [naive, Res.andThen]
  | cons c u ih =>
    simp only [List.cons_append, naive]
    split
    · rfl
    · rw [ih]
      congr 2
      simp; omega

theorem safeLoop_eq (sc : Scn σ α) (pred : Pred σ ρ) (mem : Mem) (n ptr : Nat) (st : σ) (acc : ρ) :
    safeLoop sc pred mem n ptr st acc = naive sc pred (bytesAt mem ptr n) ptr st acc := by
  induction n generalizing ptr st acc with
  | zero => rfl
  | succ n ih =>
    simp only [safeLoop, bytesAt, naive]
    split
    · rfl
    · rw [ih]

theorem safeRunChunk_eq (sc : Scn σ α) (pred : Pred σ ρ) (mem : Mem) (p pos n : Nat) (st : σ) (acc : ρ) :
    safeRunChunk sc pred mem p pos n st acc = naive sc pred (bytesAt mem (p + pos) n) (p + pos) st acc := by
  unfold safeRunChunk
  split
  · subst n; rfl
  · exact safeLoop_eq ..

theorem readLE_shift (mem : Mem) (p n : Nat) : readLE mem p (n + 1) >>> 8 = readLE mem (p + 1) n := by
  rw [readLE, Nat.shiftRight_eq_div_pow]
  have := (mem p).isLt
  omega

theorem readLE_low (mem : Mem) (p n : Nat) : readLE mem p (n + 1) &&& 0xFF = (mem p).val := by
  rw [readLE, show (0xFF : Nat) = 2 ^ 8 - 1 from rfl, Nat.and_two_pow_sub_one_eq_mod]
  have := (mem p).isLt
  omega

theorem readLE_shift_many (mem : Mem) (p n k : Nat) (h : k ≤ n) : readLE mem p n >>> (8 * k) = readLE mem (p + k) (n - k) := by
  induction k generalizing p n with
  | zero => rfl
  | succ k ih =>
    obtain ⟨m, rfl⟩ : ∃ m, n = m + 1 := ⟨n - 1, by omega⟩
    rw [show 8 * (k + 1) = 8 + 8 * k by omega, Nat.shiftRight_add, readLE_shift, ih _ _ (by omega)]
    congr 1 <;> omega

theorem chunkLoop_eq (sc : Scn σ α) (pred : Pred σ ρ) (mem : Mem) (n extra ptr : Nat) (st : σ) (acc : ρ) :
    chunkLoop sc pred (ptr + n + 1) n (readLE mem ptr (n + extra)) st acc = naive sc pred (bytesAt mem ptr n) ptr st acc := by
  induction n generalizing ptr st acc with
  | zero => rfl
  | succ n ih =>
    simp only [chunkLoop, bytesAt, naive]
    rw [show n + 1 + extra = (n + extra) + 1 by omega, readLE_low, readLE_shift,
      show ptr + (n + 1) + 1 - (n + 1) = ptr + 1 by omega]
    split
    · rfl
    · rw [show ptr + (n + 1) + 1 = (ptr + 1) + n + 1 by omega, ih]

theorem runChunk_eq (sc : Scn σ α) (pred : Pred σ ρ) (mem : Mem) (p pos n : Nat) (h : pos + n ≤ 8) (st : σ) (acc : ρ) :
    runChunk sc pred mem p pos n st acc = naive sc pred (bytesAt mem (p + pos) n) (p + pos) st acc := by
  unfold runChunk
  split
  · subst n; rfl
  · rw [readLE_shift_many _ _ _ _ (by omega), show 8 - pos = n + (8 - pos - n) by omega]
    exact chunkLoop_eq ..

theorem wordLoop_eq {sc : Scn σ α} {pred : Pred σ ρ} {mem : Mem} {body : Nat → σ → ρ → Res σ ρ}
    (hb : ∀ p st acc, body p st acc = naive sc pred (bytesAt mem p 8) p st acc) (n fuel b : Nat) (hf : n ≤ fuel)
    (st : σ) (acc : ρ) :
    wordLoop body fuel b (b + 8 * n) st acc = naive sc pred (bytesAt mem b (8 * n)) b st acc := by
  induction n generalizing fuel b st acc with
  | zero => cases fuel <;> simp [wordLoop, bytesAt, naive]
  | succ n ih =>
    obtain ⟨fuel, rfl⟩ : ∃ m, fuel = m + 1 := ⟨fuel - 1, by omega⟩
    rw [wordLoop, if_neg (by omega), show 8 * (n + 1) = 8 + 8 * n by omega, bytesAt_add, naive_append, bytesAt_length, ← hb]
    unfold Res.andThen
    simp only
    split
    · rfl
    · rw [← Nat.add_assoc, ih fuel (b + 8) (by omega)]

theorem runAligned_eq (sc : Scn σ α) (pred : Pred σ ρ) (mem : Mem) {b e : Nat} (hbe : b ≤ e) (hd : (e - b) % 8 = 0)
    (st : σ) (acc : ρ) : runAligned sc pred mem b e st acc = naive sc pred (bytesAt mem b (e - b)) b st acc := by
  obtain ⟨n, hn⟩ : ∃ n, e = b + 8 * n := ⟨(e - b) / 8, by omega⟩
  subst hn
  unfold runAligned
  rw [show b + 8 * n - b = 8 * n by omega]
  exact wordLoop_eq (fun p st acc => runChunk_eq sc pred mem p 0 8 (by omega) st acc) n _ b (by omega) st acc

theorem plainChunkLoop_eq (sc : Scn σ α) (mem : Mem) (n extra ptr : Nat) (st : σ) :
    plainChunkLoop sc n (readLE mem ptr (n + extra)) st = (bytesAt mem ptr n).foldl sc.step st := by
  induction n generalizing ptr st with
  | zero => rfl
  | succ n ih =>
    simp only [plainChunkLoop, bytesAt, List.foldl_cons]
    rw [show n + 1 + extra = (n + extra) + 1 by omega, readLE_low, readLE_shift, ih]

theorem naive_runPred (sc : Scn σ α) (l : List Nat) (ptr : Nat) (st : σ) (acc : Unit) :
    naive sc runPred l ptr st acc = ⟨l.foldl sc.step st, (), false⟩ := by
  induction l generalizing ptr st with
  | nil => rfl
  | cons c l ih => simp only [naive, runPred]; exact ih _ _

theorem runAlignedPlain_eq (sc : Scn σ α) (mem : Mem) {b e : Nat} (hbe : b ≤ e) (hd : (e - b) % 8 = 0)
    (st : σ) (acc : Unit) : runAlignedPlain sc mem b e st acc = naive sc runPred (bytesAt mem b (e - b)) b st acc := by
  obtain ⟨n, hn⟩ : ∃ n, e = b + 8 * n := ⟨(e - b) / 8, by omega⟩
  subst hn
  unfold runAlignedPlain
  rw [show b + 8 * n - b = 8 * n by omega]
  refine wordLoop_eq (fun p st acc => ?_) n _ b (by omega) st acc
  rw [naive_runPred]
  have := plainChunkLoop_eq sc mem 8 0 p st
  rw [this]

theorem alignDown_le (x : Nat) {k : Nat} : alignDown x k ≤ x := by
  unfold alignDown; exact Nat.div_mul_le_self x k

theorem alignDown8 (x : Nat) : alignDown x 8 = x - x % 8 := by unfold alignDown; omega

/-- `DoRun` equals the naive loop whenever its implementation of `RunAligned` does on aligned ranges. -/
theorem doRun_eq {sc : Scn σ α} {pred : Pred σ ρ} {mem : Mem} {aligned : Nat → Nat → σ → ρ → Res σ ρ}
    (ha : ∀ b e st acc, b ≤ e → b % 8 = 0 → e % 8 = 0 → aligned b e st acc = naive sc pred (bytesAt mem b (e - b)) b st acc)
    {b e : Nat} (hbe : b ≤ e) (st : σ) (acc : ρ) :
    doRun aligned sc pred mem b e st acc =
      ((naive sc pred (bytesAt mem b (e - b)) b st acc).st, (naive sc pred (bytesAt mem b (e - b)) b st acc).acc) := by
  unfold doRun
  simp only [alignDown8]
  split
  · rename_i hht
    rw [safeRunChunk_eq, show b - b % 8 + (8 - (b - b % 8 + 8 - b)) = b by omega]
  · rename_i hht
    -- split the range in three
    set h := if b % 8 = 0 then b else b - b % 8 + 8 with hh
    have h1 : b ≤ h := by rw [hh]; split <;> omega
    have h2 : h ≤ e - e % 8 := by rw [hh]; split <;> omega
    have h3 : h % 8 = 0 := by rw [hh]; split <;> omega
    have hsplit : bytesAt mem b (e - b) = bytesAt mem b (h - b) ++ (bytesAt mem h (e - e % 8 - h) ++ bytesAt mem (e - e % 8) (e % 8)) := by
      rw [show e - b = (h - b) + ((e - e % 8 - h) + e % 8) by omega, bytesAt_add, bytesAt_add]
      rw [show b + (h - b) = h by omega, show h + (e - e % 8 - h) = e - e % 8 by omega]
    have hfirst : (if b ≠ b - b % 8 then
        (runChunk sc pred mem (b - b % 8) (8 - (b - b % 8 + 8 - b)) (b - b % 8 + 8 - b) st acc, b - b % 8 + 8)
        else ((⟨st, acc, false⟩ : Res σ ρ), b - b % 8)) = (naive sc pred (bytesAt mem b (h - b)) b st acc, h) := by
      by_cases hb : b % 8 = 0
      · rw [if_neg (by omega), hh, if_pos hb]
        simp [bytesAt, naive, hb]
      · rw [if_pos (by omega), runChunk_eq _ _ _ _ _ _ (by omega), hh, if_neg hb]
        rw [show b - b % 8 + (8 - (b - b % 8 + 8 - b)) = b by omega]
    rw [hfirst]
    simp only
    have h4 : naive sc pred (bytesAt mem b (e - b)) b st acc =
        (naive sc pred (bytesAt mem b (h - b)) b st acc).andThen fun st acc =>
          (naive sc pred (bytesAt mem h (e - e % 8 - h)) h st acc).andThen fun st acc =>
            naive sc pred (bytesAt mem (e - e % 8) (e % 8)) (e - e % 8) st acc := by
      rw [hsplit, naive_append, bytesAt_length, show b + (h - b) = h by omega]
      congr 1
      funext st acc
      rw [naive_append, bytesAt_length, show h + (e - e % 8 - h) = e - e % 8 by omega]
    rw [h4]
    unfold Res.andThen
    simp only
    split
    · rfl
    · rw [ha _ _ _ _ h2 h3 (by omega)]
      split
      · rfl
      · rw [show e - (e - e % 8) = e % 8 by omega]
        split
        · rw [safeRunChunk_eq]; rfl
        · rename_i h0
          simp only [ne_eq, Decidable.not_not] at h0
          rw [h0]; rfl

theorem run_eq (sc : Scn σ α) (mem : Mem) {b e : Nat} (hbe : b ≤ e) (st : σ) :
    sc.run mem b e st = (bytesAt mem b (e - b)).foldl sc.step st := by
  unfold run
  rw [doRun_eq (fun b e st acc h1 h2 h3 => runAlignedPlain_eq sc mem h1 (by omega) st acc) hbe, naive_runPred]

end Scn
end Pire
