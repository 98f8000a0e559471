import Verif.Asset.Model
import Mathlib.Tactic.Ring

/-! Fee splits, and every event reduced to one of a few kinds of change. -/
namespace Verif.Asset

open Verif.Account Verif.Ledger

/-! ## Sums of shares -/

/-- What `x` receives when `total` is spread over `ds` from position `i` on. -/
def spreadFrom (total n : Nat) (x : Ref) (i : Nat) (ds : List Ref) : Nat :=
  ((ds.zipIdx i).map (fun p => if x = p.1 then total / n + (if p.2 = 0 then total % n else 0) else 0)).sum

theorem riskFee_le {fee ratio : Nat} (hr : ratio ≤ BOOST) : riskFee fee ratio ≤ fee := by
  unfold riskFee wmul
  have h1 : (fee * ratio) % U64 ≤ fee * ratio := Nat.mod_le _ _
  have h2 : fee * ratio ≤ fee * BOOST := Nat.mul_le_mul_left _ hr
  exact (Nat.div_le_div_right (h1.trans h2)).trans (by rw [Nat.mul_div_cancel _ (by decide)])

theorem share_eq {T n : Nat} (hT : T < U64) (i : Nat) : share T n i = T / n + (if i = 0 then T % n else 0) := by
  have h := Nat.div_add_mod T n
  unfold share
  split
  · rw [wadd_eq]
    by_cases hn : n = 0
    · subst hn; simpa using hT
    · have : T / n ≤ n * (T / n) := Nat.le_mul_of_pos_left _ (by omega)
      omega
  · omega

theorem share_le {T n : Nat} (hT : T < U64) (i : Nat) : share T n i ≤ T := by
  rw [share_eq hT]
  have h := Nat.div_add_mod T n
  by_cases hn : n = 0
  · subst hn; simp; split <;> omega
  · have : T / n ≤ n * (T / n) := Nat.le_mul_of_pos_left _ (by omega)
    split <;> omega

/-- The sum of the shares from position `i` on. -/
def shareSum (T n : Nat) : Nat → List Ref → Nat
  | _, [] => 0
  | i, _ :: ds => share T n i + shareSum T n (i + 1) ds

theorem shareSum_tail {T n : Nat} (hT : T < U64) : ∀ (ds : List Ref) (i : Nat), 0 < i → shareSum T n i ds = ds.length * (T / n)
  | [], _, _ => by simp [shareSum]
  | _ :: ds, i, hi => by
    simp only [shareSum, List.length_cons]
    rw [share_eq hT, if_neg (by omega), shareSum_tail hT ds (i + 1) (by omega), Nat.add_mul]; omega

theorem shareSum_all {T : Nat} {ds : List Ref} (hT : T < U64) (hd : ds ≠ []) : shareSum T ds.length 0 ds = T := by
  cases ds with
  | nil => exact absurd rfl hd
  | cons d ds =>
    have h := Nat.div_add_mod T (ds.length + 1)
    simp only [shareSum, List.length_cons]
    rw [share_eq hT, if_pos rfl, shareSum_tail hT ds 1 (by omega)]
    rw [Nat.add_mul] at h
    omega

theorem shareReqs_mem {pay : Ref → Nat → Req} {T n : Nat} : ∀ {ds : List Ref} {i : Nat} {q : Req}, q ∈ shareReqs pay T n i ds →
    ∃ d ∈ ds, ∃ j, q = pay d (share T n j)
  | [], _, _, h => by simp [shareReqs] at h
  | d :: ds, i, q, h => by
    simp only [shareReqs, List.mem_cons] at h
    rcases h with h | h
    · exact ⟨d, by simp, i, h⟩
    · obtain ⟨d', hd, j, e⟩ := shareReqs_mem h
      exact ⟨d', by simp [hd], j, e⟩

theorem shareReqs_sum {f : Req → Int} {pay : Ref → Nat → Req} {T n : Nat} (hT : T < U64) (c x : Int)
    (g : Ref → Int) (hf : ∀ d v, f (pay d v) = c * v + g d * v) : ∀ (ds : List Ref) (i : Nat),
    sumReq f (shareReqs pay T n i ds) = c * shareSum T n i ds +
      ((ds.zipIdx i).map (fun p => g p.1 * ((T / n + (if p.2 = 0 then T % n else 0) : Nat) : Int))).sum
  | [], _ => by simp [shareReqs, shareSum]
  | d :: ds, i => by
    simp only [shareReqs, shareSum, sumReq_cons, List.zipIdx_cons, List.map_cons, List.sum_cons]
    rw [shareReqs_sum hT c x g hf ds (i + 1), hf, share_eq hT]
    push_cast
    ring

theorem spread_int (T n : Nat) (x : Ref) (k : Int) : ∀ (ds : List Ref) (i : Nat),
    ((ds.zipIdx i).map (fun p => (if x = p.1 then k else 0) * ((T / n + (if p.2 = 0 then T % n else 0) : Nat) : Int))).sum =
      k * spreadFrom T n x i ds
  | [], _ => by simp [spreadFrom]
  | d :: ds, i => by
    have ih := spread_int T n x k ds (i + 1)
    unfold spreadFrom at ih ⊢
    simp only [List.zipIdx_cons, List.map_cons, List.sum_cons]
    rw [ih]
    by_cases h : x = d
    · rw [if_pos h, if_pos h]; push_cast; ring
    · rw [if_neg h, if_neg h]; simp

theorem shareReqs_minted {pay : Ref → Nat → Req} {T n : Nat} {s : Sym} (hf : ∀ d v, minted s (pay d v) = 0) :
    ∀ (ds : List Ref) (i : Nat), mintedAll s (shareReqs pay T n i ds) = 0
  | [], _ => rfl
  | d :: ds, i => by simp [shareReqs, hf, shareReqs_minted hf ds (i + 1)]

theorem shareReqs_minted_all {pay : Ref → Nat → Req} {T n : Nat} {s : Sym} (hf : ∀ d v, minted s (pay d v) = v) :
    ∀ (ds : List Ref) (i : Nat), mintedAll s (shareReqs pay T n i ds) = shareSum T n i ds
  | [], _ => rfl
  | d :: ds, i => by simp [shareReqs, shareSum, hf, shareReqs_minted_all hf ds (i + 1)]

theorem shareReqs_burned {pay : Ref → Nat → Req} {T n : Nat} {s : Sym} (hf : ∀ d v, burned s (pay d v) = 0) :
    ∀ (ds : List Ref) (i : Nat), burnedAll s (shareReqs pay T n i ds) = 0
  | [], _ => rfl
  | d :: ds, i => by simp [shareReqs, hf, shareReqs_burned hf ds (i + 1)]

/-! ## The fee of a swap -/

theorem swapFee_le {ratio amount : Nat} (hr : ratio ≤ 1000) (ha : amount ≠ 0) : 4 * swapFee ratio amount ≤ amount := by
  obtain ⟨t, h1, h2⟩ : ∃ t, 2 ^ t ≤ amount ∧ amount < 2 ^ (t + 1) :=
    ⟨Nat.log2 amount, Nat.log2_self_le ha, Nat.lt_log2_self⟩
  unfold swapFee
  have a1 : fround 53 amount 1 ≤ 1 * 2 ^ (t + 1) := fround_le (by decide) (by decide) (by decide) (by omega)
  generalize fround 53 amount 1 = A at a1
  have a2 : fround 53 (A * 2 ^ 60) BOOST ≤ 1 * 2 ^ (t + 48) := by
    apply fround_le (by decide) (by decide) (by decide)
    have : A * 2 ^ 60 ≤ 1 * 2 ^ (t + 1) * 2 ^ 60 := Nat.mul_le_mul_right _ a1
    have e1 : 1 * 2 ^ (t + 1) * 2 ^ 60 = 2 ^ (t + 48) * 8192 := by
      rw [Nat.one_mul, ← Nat.pow_add, show 8192 = 2 ^ 13 by rfl, ← Nat.pow_add]
    rw [e1] at this
    rw [Nat.one_mul]
    exact this.trans (Nat.mul_le_mul_left _ (by decide))
  generalize fround 53 (A * 2 ^ 60) BOOST = Q at a2
  have a3 : fround 53 (ratio * Q) 1 ≤ 1 * 2 ^ (t + 58) := by
    apply fround_le (by decide) (by decide) (by decide)
    have : ratio * Q ≤ 1000 * (1 * 2 ^ (t + 48)) := Nat.mul_le_mul hr a2
    have e1 : 2 ^ (t + 58) = 2 ^ (t + 48) * 1024 := by
      rw [show 1024 = 2 ^ 10 by rfl, ← Nat.pow_add]
    rw [e1]
    generalize 2 ^ (t + 48) = X at *
    omega
  generalize fround 53 (ratio * Q) 1 = P at a3
  have e : 4 * 2 ^ (t + 58) = 2 ^ t * 2 ^ 60 := by
    rw [show 4 = 2 ^ 2 by rfl, ← Nat.pow_add, ← Nat.pow_add]; congr 1; omega
  have hd : P / 2 ^ 60 * 2 ^ 60 ≤ P := Nat.div_mul_le_self _ _
  generalize 2 ^ (t + 58) = X at *
  generalize 2 ^ t = Y at *
  generalize P / 2 ^ 60 = F at *
  omega

/-! ## The fee functions -/

/-- The environment stays inside `S`, numbers are 64-bit and ratios in their governed range. -/
structure Env.In (S : Finset Ref) (env : Env) : Prop where
  fcoin : env.fcoin ∈ S
  gateway : env.gateway ∈ S
  delegates : ∀ d ∈ env.delegates, d ∈ S
  voters : ∀ d ∈ env.voters, d ∈ S
  issueFee : env.issueFee < U64
  updateFee : ∀ f, env.updateFee = some f → f < U64
  assetRatio : env.assetRatio ≤ BOOST
  operRatio : env.operRatio ≤ BOOST
  axcRatio : env.axcRatio ≤ 1000

theorem assetFeeReqs_within {S : Finset Ref} {env : Env} {src : Ref} {fee : Nat} (hE : env.In S) (hs : src ∈ S) (hf : fee < U64) :
    ∀ q ∈ assetFeeReqs env src fee, q.Within S := by
  intro q hq
  have hr := riskFee_le (fee := fee) hE.assetRatio
  simp only [assetFeeReqs, List.mem_cons] at hq
  rcases hq with rfl | hq
  · exact ⟨hs, fun p e => by cases e; exact hE.fcoin, lt_of_le_of_lt hr hf⟩
  · obtain ⟨d, hd, j, rfl⟩ := shareReqs_mem hq
    exact ⟨hs, fun p e => by cases e; exact hE.delegates _ hd, lt_of_le_of_lt (share_le (wsub_lt _ _) j) (wsub_lt _ _)⟩

theorem assetFeeReqs_quiet {env : Env} {src : Ref} {fee : Nat} (s : Sym) :
    mintedAll s (assetFeeReqs env src fee) = 0 ∧ burnedAll s (assetFeeReqs env src fee) = 0 := by
  constructor
  · simp only [assetFeeReqs, mintedAll_cons]
    rw [shareReqs_minted (fun d v => by simp [minted])]; simp [minted]
  · simp only [assetFeeReqs, burnedAll_cons]
    rw [shareReqs_burned (fun d v => by simp [burned])]; simp [burned]

theorem assetFee_some {env : Env} {m m' : Mem} {src : Ref} {fee : Nat} (h : assetFee env m src fee = some m') :
    fee ≤ bal m src WICC .free ∧ env.delegates ≠ [] ∧ execAll m (assetFeeReqs env src fee) = some m' := by
  unfold assetFee at h
  split at h; · cases h
  split at h; · cases h
  split at h; · cases h
  split at h; · cases h
  rename_i h1 _ h3 _
  exact ⟨by omega, h3, h⟩

theorem operFee_some {env : Env} {m m' : Mem} {src : Ref} {fee : Nat} (h : operFee env m src fee = some m') :
    env.delegates ≠ [] ∧ execAll m (operFeeReqs env src fee) = some m' := by
  unfold operFee at h
  split at h; · cases h
  split at h; · cases h
  split at h; · cases h
  rename_i _ h3 _
  exact ⟨h3, h⟩

theorem operFeeReqs_within {S : Finset Ref} {env : Env} {src : Ref} {fee : Nat} (hE : env.In S) (hs : src ∈ S) (hf : fee < U64) :
    ∀ q ∈ operFeeReqs env src fee, q.Within S := by
  intro q hq
  have hr := riskFee_le (fee := fee) hE.operRatio
  simp only [operFeeReqs, List.mem_cons] at hq
  rcases hq with rfl | rfl | hq
  · exact ⟨hs, fun p e => (by cases e), hf⟩
  · exact ⟨hE.fcoin, fun p e => (by cases e), lt_of_le_of_lt hr hf⟩
  · obtain ⟨d, hd, j, rfl⟩ := shareReqs_mem hq
    exact ⟨hE.delegates _ hd, fun p e => (by cases e), lt_of_le_of_lt (share_le (wsub_lt _ _) j) (wsub_lt _ _)⟩

theorem operFeeReqs_flow {S : Finset Ref} {env : Env} {src : Ref} {fee : Nat} (hE : env.In S) (hf : fee < U64)
    (hd : env.delegates ≠ []) (s : Sym) :
    mintedAll s (operFeeReqs env src fee) = (if s = WICC then fee else 0) ∧
    burnedAll s (operFeeReqs env src fee) = (if s = WICC then fee else 0) := by
  have hr := riskFee_le (fee := fee) hE.operRatio
  constructor
  · simp only [operFeeReqs, mintedAll_cons]
    by_cases h : s = WICC
    · subst h
      rw [shareReqs_minted_all (fun d v => by simp [minted]), shareSum_all (wsub_lt _ _) hd, wsub_eq hr hf]
      simp [minted]; omega
    · rw [shareReqs_minted (fun d v => by simp [minted, Ne.symm h])]
      simp [minted, Ne.symm h, h]
  · simp only [operFeeReqs, burnedAll_cons]
    rw [shareReqs_burned (fun d v => by simp [burned])]
    simp [burned, eq_comm]

theorem axcInReqs_within {S : Finset Ref} {env : Env} {s : Sym} {dest : Ref} {fee amount : Nat} (hE : env.In S) (hs : dest ∈ S)
    (hf : fee < U64) : ∀ q ∈ axcInReqs env s dest fee amount, q.Within S := by
  intro q hq
  simp only [axcInReqs, List.mem_append, List.mem_map, List.mem_cons, List.not_mem_nil, or_false] at hq
  rcases hq with ⟨d, hd, rfl⟩ | rfl | rfl
  · exact ⟨hE.voters _ hd, fun p e => (by cases e), lt_of_le_of_lt (Nat.div_le_self _ _) hf⟩
  · exact ⟨hE.gateway, fun p e => (by cases e), wsub_lt _ _⟩
  · exact ⟨hs, fun p e => (by cases e), wsub_lt _ _⟩

theorem mintedAll_map_add (s : Sym) (v : Nat) : ∀ ds : List Ref,
    mintedAll s (ds.map (fun r => ⟨r, s, .addFree, v, none⟩)) = ds.length * v
  | [] => by simp
  | d :: ds => by simp [mintedAll_map_add s v ds, minted, Nat.add_mul]; omega

theorem perVoter_le (fee n : Nat) : fee / (n + 3) * n ≤ fee := by
  have h := Nat.div_mul_le_self fee (n + 3)
  rw [Nat.mul_add] at h
  omega

theorem axcInReqs_flow {env : Env} {s : Sym} {dest : Ref} {fee amount : Nat} (hf : fee ≤ amount) (ha : amount < U64) (t : Sym) :
    mintedAll t (axcInReqs env s dest fee amount) = (if t = s then amount else 0) ∧
    burnedAll t (axcInReqs env s dest fee amount) = 0 := by
  have hp := perVoter_le fee env.voters.length
  constructor
  · by_cases h : t = s
    · subst h
      simp only [axcInReqs, mintedAll_append, mintedAll_map_add, mintedAll_cons, mintedAll_nil, minted, and_self, if_true]
      rw [wmul_eq (by omega), wsub_eq (by omega) (by omega), wsub_eq hf ha, Nat.mul_comm]
      omega
    · have : ∀ q ∈ axcInReqs env s dest fee amount, minted t q = 0 := by
        intro q hq
        simp only [axcInReqs, List.mem_append, List.mem_map, List.mem_cons, List.not_mem_nil, or_false] at hq
        rcases hq with ⟨d, hd, rfl⟩ | rfl | rfl <;> simp [minted, Ne.symm h]
      rw [if_neg h, mintedAll]
      exact List.sum_eq_zero (by simpa using this)
  · rw [burnedAll]
    refine List.sum_eq_zero (fun x hx => ?_)
    simp only [List.mem_map] at hx
    obtain ⟨q, hq, rfl⟩ := hx
    simp only [axcInReqs, List.mem_append, List.mem_map, List.mem_cons, List.not_mem_nil, or_false] at hq
    rcases hq with ⟨d, hd, rfl⟩ | rfl | rfl <;> simp [burned]

theorem cell_if (x : Ref) (s : Sym) (b : Bucket) (r : Ref) (t : Sym) (v : Int) :
    cell x s b r t .free v = if s = t ∧ b = .free then (if x = r then v else 0) else 0 := by
  unfold cell
  by_cases h1 : x = r <;> by_cases h2 : s = t ∧ b = .free <;> simp [h1, h2]

end Verif.Asset
