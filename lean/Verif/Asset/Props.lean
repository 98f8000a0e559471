import Verif.Asset.Inv
import Verif.Ledger.Live

/-!
# Theorems: fee splits (C32), mirrored coins (C44), issued assets (C45)
-/
namespace Verif.Asset

open Verif.Account Verif.Ledger

/-! ## C32: fees are split without loss -/

/-- What `x` receives when `total` is divided among `ds`: an equal part for every place it holds, the rest with the first. -/
def spread (total : Nat) (ds : List Ref) (x : Ref) : Nat :=
  (ds.zipIdx.map (fun p => if x = p.1 then total / ds.length + (if p.2 = 0 then total % ds.length else 0) else 0)).sum

/-- The sum of the parts is the whole. -/
theorem spread_sum (total : Nat) (ds : List Ref) (hd : ds ≠ []) (S : Finset Ref) (hS : ∀ d ∈ ds, d ∈ S) :
    S.sum (spread total ds) = total := by
  have key : ∀ (l : List Ref) (n i : Nat), (∀ d ∈ l, d ∈ S) → S.sum (fun x => spreadFrom total n x i l) =
      ((l.zipIdx i).map (fun p => total / n + (if p.2 = 0 then total % n else 0))).sum := by
    intro l
    induction l with
    | nil => intro n i _; simp [spreadFrom]
    | cons d l ih =>
      intro n i hl
      have e : (fun x => spreadFrom total n x i (d :: l)) = fun x => (if x = d then total / n + (if i = 0 then total % n else 0) else 0)
          + spreadFrom total n x (i + 1) l := by funext x; simp [spreadFrom]
      rw [e, Finset.sum_add_distrib, ih n (i + 1) (fun d' h' => hl d' (by simp [h']))]
      rw [Finset.sum_ite_eq' S d, if_pos (hl d (by simp))]
      simp
  have tail : ∀ (l : List Ref) (n i : Nat), 0 < i → ((l.zipIdx i).map (fun p => total / n + (if p.2 = 0 then total % n else 0))).sum =
      l.length * (total / n) := by
    intro l
    induction l with
    | nil => intro n i _; simp
    | cons d l ih =>
      intro n i hi
      simp only [List.zipIdx_cons, List.map_cons, List.sum_cons, List.length_cons]
      rw [ih n (i + 1) (by omega), if_neg (by omega), Nat.add_mul]; omega
  have := key ds ds.length 0 hS
  show S.sum (fun x => spreadFrom total ds.length x 0 ds) = total
  rw [this]
  cases ds with
  | nil => exact absurd rfl hd
  | cons d l =>
    simp only [List.zipIdx_cons, List.map_cons, List.sum_cons, List.length_cons]
    rw [tail l _ 1 (by omega), if_pos trivial]
    have h := Nat.div_add_mod total (l.length + 1)
    rw [Nat.add_mul] at h
    omega

/-- The fee of issuing an asset: the sender pays exactly the fee, the reserve receives its share, the producers the rest, and
nothing else changes. The share is the stated fraction unless the product leaves 64 bits. -/
theorem asset_fee_split (S : Finset Ref) (env : Env) (m m' : Mem) (src : Ref) (fee : Nat) (hE : env.In S) (hs : src ∈ S)
    (hf : fee < U64) (hwf : WF m) (ht : ∀ s, total m s S < U64) (h : assetFee env m src fee = some m') :
    ∃ reserve, reserve ≤ fee ∧ (fee * env.assetRatio < U64 → reserve = fee * env.assetRatio / 10000) ∧
      (∀ x, bal m' x WICC .free + (if x = src then fee else 0) =
        bal m x WICC .free + (if x = env.fcoin then reserve else 0) + spread (fee - reserve) env.delegates x) ∧
      (∀ x s b, ¬ (s = WICC ∧ b = .free) → bal m' x s b = bal m x s b) ∧ ∀ s, total m' s S = total m s S := by
  obtain ⟨_, hd, hx⟩ := assetFee_some h
  have hr := riskFee_le (fee := fee) hE.assetRatio
  have hq := fun s => assetFeeReqs_quiet (env := env) (src := src) (fee := fee) s
  obtain ⟨_, e, t⟩ := execAll_exact S _ m m' hwf (assetFeeReqs_within hE hs hf) (fun s => by rw [(hq s).1]; exact ht s) hx
  have hT : wsub fee (riskFee fee env.assetRatio) < U64 := wsub_lt _ _
  have hsum := shareSum_all hT hd
  have hsub := wsub_eq hr hf
  have key : ∀ x s b, sumReq (reqDelta x s b) (assetFeeReqs env src fee) =
      if s = WICC ∧ b = .free then (if x = env.fcoin then (riskFee fee env.assetRatio : Int) else 0)
        + spread (fee - riskFee fee env.assetRatio) env.delegates x - (if x = src then (fee : Int) else 0) else 0 := by
    intro x s b
    simp only [assetFeeReqs, sumReq_cons]
    rw [shareReqs_sum hT (if s = WICC ∧ b = .free then (if x = src then -1 else 0) else 0) 0
      (fun d => if x = d then (if s = WICC ∧ b = .free then 1 else 0) else 0) (by
        intro d v
        rw [reqDelta_subFree_peer, cell_if, cell_if]
        by_cases h2 : s = WICC ∧ b = .free
        · simp only [if_pos h2]
          by_cases h1 : x = src <;> by_cases h3 : x = d <;> simp [h1, h3]
        · simp only [if_neg h2]; simp)]
    rw [spread_int, hsum, reqDelta_subFree_peer, hsub, cell_if, cell_if]
    have e1 : spreadFrom (fee - riskFee fee env.assetRatio) env.delegates.length x 0 env.delegates =
        spread (fee - riskFee fee env.assetRatio) env.delegates x := rfl
    rw [e1]
    by_cases h2 : s = WICC ∧ b = .free
    · simp only [if_pos h2]
      split <;> split <;> omega
    · simp only [if_neg h2]; simp
  refine ⟨riskFee fee env.assetRatio, hr, fun hw => by unfold riskFee; rw [wmul_eq hw]; rfl, fun x => ?_, fun x s b hn => ?_, fun s => ?_⟩
  · have h1 := e x WICC .free
    rw [key, if_pos ⟨rfl, rfl⟩] at h1
    by_cases hx1 : x = src <;> by_cases hx2 : x = env.fcoin
    · simp only [if_pos hx1, if_pos hx2] at h1 ⊢; omega
    · simp only [if_pos hx1, if_neg hx2] at h1 ⊢; omega
    · simp only [if_neg hx1, if_pos hx2] at h1 ⊢; omega
    · simp only [if_neg hx1, if_neg hx2] at h1 ⊢; omega
  · have h1 := e x s b
    rw [key, if_neg hn] at h1
    omega
  · have := t s
    rw [(hq s).1, (hq s).2] at this
    omega

/-- The fee of registering or changing an exchange operator, likewise. -/
theorem operator_fee_split (S : Finset Ref) (env : Env) (m m' : Mem) (src : Ref) (fee : Nat) (hE : env.In S) (hs : src ∈ S)
    (hf : fee < U64) (hwf : WF m) (ht : ∀ s, total m s S + fee < U64) (h : operFee env m src fee = some m') :
    ∃ reserve, reserve ≤ fee ∧ (fee * env.operRatio < U64 → reserve = fee * env.operRatio / 10000) ∧
      (∀ x, bal m' x WICC .free + (if x = src then fee else 0) =
        bal m x WICC .free + (if x = env.fcoin then reserve else 0) + spread (fee - reserve) env.delegates x) ∧
      (∀ x s b, ¬ (s = WICC ∧ b = .free) → bal m' x s b = bal m x s b) ∧ ∀ s, total m' s S = total m s S := by
  obtain ⟨hd, hx⟩ := operFee_some h
  have hr := riskFee_le (fee := fee) hE.operRatio
  have hq := operFeeReqs_flow (src := src) hE hf hd
  obtain ⟨_, e, t⟩ := execAll_exact S _ m m' hwf (operFeeReqs_within hE hs hf)
    (fun s => by have := ht s; rw [(hq s).1]; split <;> omega) hx
  have hT : wsub fee (riskFee fee env.operRatio) < U64 := wsub_lt _ _
  have hsub := wsub_eq hr hf
  have key : ∀ x s b, sumReq (reqDelta x s b) (operFeeReqs env src fee) =
      if s = WICC ∧ b = .free then (if x = env.fcoin then (riskFee fee env.operRatio : Int) else 0)
        + spread (fee - riskFee fee env.operRatio) env.delegates x - (if x = src then (fee : Int) else 0) else 0 := by
    intro x s b
    simp only [operFeeReqs, sumReq_cons]
    rw [shareReqs_sum hT 0 0
      (fun d => if x = d then (if s = WICC ∧ b = .free then 1 else 0) else 0) (by
        intro d v
        rw [reqDelta_addFree, cell_if]
        by_cases h2 : s = WICC ∧ b = .free
        · simp only [if_pos h2]
          by_cases h3 : x = d <;> simp [h3]
        · simp only [if_neg h2]; simp)]
    rw [spread_int, reqDelta_subFree, reqDelta_addFree, hsub, cell_if, cell_if]
    have e1 : spreadFrom (fee - riskFee fee env.operRatio) env.delegates.length x 0 env.delegates =
        spread (fee - riskFee fee env.operRatio) env.delegates x := rfl
    rw [e1]
    by_cases h2 : s = WICC ∧ b = .free
    · simp only [if_pos h2]
      split <;> split <;> omega
    · simp only [if_neg h2]; simp
  refine ⟨riskFee fee env.operRatio, hr, fun hw => by unfold riskFee; rw [wmul_eq hw]; rfl, fun x => ?_, fun x s b hn => ?_, fun s => ?_⟩
  · have h1 := e x WICC .free
    rw [key, if_pos ⟨rfl, rfl⟩] at h1
    by_cases hx1 : x = src <;> by_cases hx2 : x = env.fcoin
    · simp only [if_pos hx1, if_pos hx2] at h1 ⊢; omega
    · simp only [if_pos hx1, if_neg hx2] at h1 ⊢; omega
    · simp only [if_neg hx1, if_pos hx2] at h1 ⊢; omega
    · simp only [if_neg hx1, if_neg hx2] at h1 ⊢; omega
  · have h1 := e x s b
    rw [key, if_neg hn] at h1
    omega
  · have := t s
    rw [(hq s).1, (hq s).2] at this
    omega

/-- A sender who holds the fee can pay it. -/
theorem asset_fee_affordable (S : Finset Ref) (env : Env) (m : Mem) (src : Ref) (fee : Nat) (hE : env.In S) (hs : src ∈ S)
    (hf : fee < U64) (hwf : WF m) (ht : ∀ s, total m s S < U64) (hk : ∀ a ∈ S, ∀ b ∈ S, (m a).keyid = (m b).keyid → a = b)
    (hb : fee ≤ bal m src WICC .free) (hd : env.delegates ≠ []) (hac : ∀ d ∈ env.delegates, env.acct d = true)
    (hfc : env.acct env.fcoin = true) : ∃ m', assetFee env m src fee = some m' := by
  have hr := riskFee_le (fee := fee) hE.assetRatio
  have hT : wsub fee (riskFee fee env.assetRatio) < U64 := wsub_lt _ _
  have hsum := shareSum_all hT hd
  have hcov : ∀ (ds : List Ref) (i n T : Nat) (f : Ref → Sym → Bucket → Int), ((shareSum T n i ds : Nat) : Int) ≤ f src WICC .free →
      Cov f (shareReqs (fun d v => ⟨src, WICC, .subFree, v, some d⟩) T n i ds) := by
    intro ds
    induction ds with
    | nil => intros; trivial
    | cons d ds ih =>
      intro i n T f hle
      simp only [shareSum] at hle
      push_cast at hle
      refine ⟨fun b hb' => ?_, ih _ _ _ _ ?_⟩
      · simp only [source, Option.some.injEq] at hb'
        subst hb'
        dsimp only
        omega
      · dsimp only
        rw [reqDelta_subFree_peer]
        unfold cell
        by_cases h : src = d <;> simp [h] <;> (try rw [h] at hle) <;> omega
  obtain ⟨m', h'⟩ := execAll_cov S (assetFeeReqs env src fee) m hwf hk (by
    intro q hq
    refine ⟨assetFeeReqs_within hE hs hf q hq, ?_⟩
    simp only [assetFeeReqs, List.mem_cons] at hq
    rcases hq with rfl | hq
    · exact ⟨by simp, by simp, by simp⟩
    · obtain ⟨d, _, j, rfl⟩ := shareReqs_mem hq
      exact ⟨by simp, by simp, by simp⟩) ht (by
    refine ⟨fun b hb' => ?_, hcov _ _ _ _ _ ?_⟩
    · simp only [source, Option.some.injEq] at hb'
      subst hb'
      dsimp only
      omega
    · rw [hsum, wsub_eq hr hf, reqDelta_subFree_peer]
      unfold cell
      by_cases h : src = env.fcoin <;> simp [h] <;> (try rw [h] at hb) <;> omega)
  refine ⟨m', ?_⟩
  unfold assetFee
  rw [if_neg (by omega), if_neg (by simp [hfc]), if_neg hd, if_neg (by simpa using hac)]
  exact h'

/-- The fee of a swap: every approving producer receives an equal part, the gateway the rest, the depositor the remainder of the
deposit; all of it together is the deposit. -/
theorem swap_in_split (S : Finset Ref) (env : Env) (m m' : Mem) (s : Sym) (dest : Ref) (amount : Nat) (hE : env.In S) (hs : dest ∈ S)
    (ha : amount < U64) (h0 : amount ≠ 0) (hwf : WF m) (ht : ∀ t, total m t S + (if t = s then amount else 0) < U64)
    (h : execAll m (axcInReqs env s dest (swapFee env.axcRatio amount) amount) = some m') :
    ∃ fee, 4 * fee ≤ amount ∧
      (∀ x, bal m' x s .free = bal m x s .free + env.voters.count x * (fee / (env.voters.length + 3)) +
        (if x = env.gateway then fee - env.voters.length * (fee / (env.voters.length + 3)) else 0) +
        (if x = dest then amount - fee else 0)) ∧
      (∀ x t b, ¬ (t = s ∧ b = .free) → bal m' x t b = bal m x t b) ∧
      ∀ t, total m' t S = total m t S + (if t = s then amount else 0) := by
  have hfee := swapFee_le (ratio := env.axcRatio) hE.axcRatio h0
  generalize swapFee env.axcRatio amount = fee at *
  have hq := fun t => axcInReqs_flow (env := env) (s := s) (dest := dest) (fee := fee) (amount := amount) (by omega) ha t
  obtain ⟨_, e, t⟩ := execAll_exact S _ m m' hwf (axcInReqs_within hE hs (by omega)) (fun t => by rw [(hq t).1]; exact ht t) h
  have hp := perVoter_le fee env.voters.length
  have hmap : ∀ x t b (l : List Ref) (v : Nat), sumReq (reqDelta x t b) (l.map (fun r => ⟨r, s, .addFree, v, none⟩)) =
      if t = s ∧ b = .free then ((l.count x * v : Nat) : Int) else 0 := by
    intro x t b l v
    induction l with
    | nil => simp
    | cons d l ih =>
      simp only [List.map_cons, sumReq_cons]
      rw [ih, reqDelta_addFree, List.count_cons]
      unfold cell
      by_cases h2 : t = s ∧ b = .free
      · by_cases h1 : x = d
        · subst h1; simp [h2, Nat.add_mul]; omega
        · have : ¬ d = x := fun e => h1 e.symm
          simp [h1, h2, this]
      · simp [h2]
  refine ⟨fee, hfee, fun x => ?_, fun x t' b hn => ?_, fun t' => ?_⟩
  · have h1 := e x s .free
    simp only [axcInReqs, sumReq_append, sumReq_cons, sumReq_nil, hmap, reqDelta_addFree, and_self, if_true] at h1
    rw [wmul_eq (by omega), wsub_eq (by omega) (by omega), wsub_eq (by omega) ha] at h1
    rw [Nat.mul_comm env.voters.length]
    simp only [cell_if, and_self, if_true] at h1
    generalize env.voters.count x * (fee / (env.voters.length + 3)) = C at *
    generalize fee / (env.voters.length + 3) * env.voters.length = D at *
    by_cases hx1 : x = env.gateway <;> by_cases hx2 : x = dest
    · simp only [if_pos hx1, if_pos hx2] at h1 ⊢; omega
    · simp only [if_pos hx1, if_neg hx2] at h1 ⊢; omega
    · simp only [if_neg hx1, if_pos hx2] at h1 ⊢; omega
    · simp only [if_neg hx1, if_neg hx2] at h1 ⊢; omega
  · have h1 := e x t' b
    simp only [axcInReqs, sumReq_append, sumReq_cons, sumReq_nil, hmap, reqDelta_addFree, if_neg hn] at h1
    unfold cell at h1
    simp only [hn, and_false, if_false] at h1
    omega
  · have := t t'
    rw [(hq t').1, (hq t').2] at this
    omega

/-! ## Histories from the first block -/

/-- The state after the first block: the native assets exist, nobody owns them, nothing else exists. -/
structure Genesis (S : Finset Ref) (st : State) : Prop where
  wf : WF st.mem
  assets : ∀ s, (s ∈ natives → ∃ a, st.assets s = some a ∧ a.owner = none) ∧ (s ∉ natives → st.assets s = none)
  empty : ∀ s, s ∉ natives → total st.mem s S = 0
  ps : ∀ p, st.ps p = none
  sp : ∀ s, st.sp s = none
  log : st.log = []

theorem genesis_inv {S : Finset Ref} {st : State} (h : Genesis S st) : Inv S st := by
  have hno : ∀ s a, st.assets s = some a → s ∈ natives := by
    intro s a ha
    by_cases hs : s ∈ natives
    · exact hs
    · rw [(h.assets s).2 hs] at ha; cases ha
  refine ⟨⟨fun s hs => (h.assets s).1 hs, fun s a ha hm => absurd hm (native_not_mirrored (hno s a ha)),
    fun s a hs ha => absurd (hno s a ha) hs, fun p w hp => ?_, fun s w hp => ?_⟩, h.wf, fun s hs => ?_, fun s hs => ?_,
    by rw [h.log]; exact List.nodup_nil, by rw [h.log]; simp [swapped], by rw [h.log]; exact List.nodup_nil,
    by rw [h.log]; simp [issuedSyms], by rw [h.log]; simp⟩
  · rw [h.ps] at hp; cases hp
  · rw [h.sp] at hp; cases hp
  · rw [h.empty s hs, sup_none ((h.assets s).2 hs)]
  · rw [h.log, sup_none ((h.assets s).2 hs)]; rfl

/-- Everything a history may assume: it starts at the first block, touches accounts of `S` only, and native coins stay below
`2^64`. -/
structure History (S : Finset Ref) (st : State) (es : List Ev) : Prop where
  genesis : Genesis S st
  within : ∀ e ∈ es, e.In S
  bound : ∀ s ∈ natives, total st.mem s S + mintSum s es < U64

theorem History.inv {S : Finset Ref} {st : State} {es : List Ev} (h : History S st es) : Inv S (run st es) :=
  run_inv es (genesis_inv h.genesis) h.within h.bound

theorem History.prefix {S : Finset Ref} {st : State} {a b : List Ev} (h : History S st (a ++ b)) : History S st a := by
  refine ⟨h.genesis, fun e he => h.within e (by simp [he]), fun s hs => ?_⟩
  have := h.bound s hs
  simp only [mintSum, List.map_append, List.sum_append] at this ⊢
  omega

theorem run_append (st : State) (a b : List Ev) : run st (a ++ b) = run (run st a) b := by
  simp [run, List.foldl_append]

/-! ## C45: issued assets -/

/-- In every history, for every asset other than the three native ones, the sum of all balances is the recorded supply, which is
within the maximum; an asset that was never issued has no balances. -/
theorem asset_balances_equal_supply (S : Finset Ref) (st : State) (es : List Ev) (h : History S st es) (s : Sym) (hs : s ∉ natives) :
    ((run st es).assets s = none → total (run st es).mem s S = 0) ∧
    ∀ a, (run st es).assets s = some a → total (run st es).mem s S = a.supply ∧ a.supply ≤ 9000000000000000000 := by
  have hI := h.inv
  refine ⟨fun hn => by rw [hI.tot s hs, sup_none hn], fun a ha => ⟨by rw [hI.tot s hs, sup_of ha], hI.base.cap s a hs ha⟩⟩

/-- What a successful event can do to an existing asset. -/
theorem tr_asset {e : Ev} {st st' : State} {qs : List Req} (hI : Inv0 st) (h : Tr e st st' qs) {s : Sym} {a : Asset}
    (ha : st.assets s = some a) : ∃ a', st'.assets s = some a' ∧ a'.typ = a.typ ∧ a'.mintable = a.mintable ∧
      (a'.owner ≠ a.owner → ∃ o, a.owner = some o ∧ Auth e o) ∧
      (a'.supply ≠ a.supply → ¬ Mirrored s → a.mintable = true ∧ ∃ o, a.owner = some o ∧ Auth e o) := by
  have same : ∃ a', st.assets s = some a' ∧ a'.typ = a.typ ∧ a'.mintable = a.mintable ∧
      (a'.owner ≠ a.owner → ∃ o, a.owner = some o ∧ Auth e o) ∧
      (a'.supply ≠ a.supply → ¬ Mirrored s → a.mintable = true ∧ ∃ o, a.owner = some o ∧ Auth e o) :=
    ⟨a, ha, rfl, rfl, fun h => absurd rfl h, fun h => absurd rfl h⟩
  cases h with
  | fee m _ hx hq => exact same
  | adjust t b b' m _ hx hq hb ht hs hm ho hn =>
    by_cases e : s = t
    · subst e
      rw [ha] at hb; cases hb
      refine ⟨b', setAsset_same _ _ _, ht, hm, fun hne => ?_, fun hne => absurd hs hne⟩
      rcases ho with ho | ho
      · exact absurd ho hne
      · exact ho
    · rw [setAsset_other _ _ e]; exact same
  | issue t b o m qs hx hq hb hs hM =>
    by_cases e : s = t
    · subst e; rw [ha] at hb; cases hb
    · rw [setAsset_other _ _ e]; exact same
  | mint t b v r o m qs hx hq hb hmi ho hau hM =>
    by_cases e : s = t
    · subst e
      rw [ha] at hb; cases hb
      exact ⟨_, setAsset_same _ _ _, rfl, rfl, fun h => absurd rfl h, fun _ _ => ⟨hmi, o, ho, hau⟩⟩
    · rw [setAsset_other _ _ e]; exact same
  | burn t b v o m hx hb hmi ho hau hv =>
    by_cases e : s = t
    · subst e
      rw [ha] at hb; cases hb
      exact ⟨_, setAsset_same _ _ _, rfl, rfl, fun h => absurd rfl h, fun _ _ => ⟨hmi, o, ho, hau⟩⟩
    · rw [setAsset_other _ _ e]; exact same
  | coin w hb hp =>
    have : (setSwap (setAsset st (selfSym w.peer) ⟨.dia, defaultPerms, none, 0, false⟩) w).assets s = st.assets s := by
      show (setAsset st (selfSym w.peer) _).assets s = _
      refine setAsset_other _ _ ?_
      rintro rfl
      rw [ha] at hb; cases hb
    rw [this]; exact same
  | swap w w' hp hw => exact same
  | axcIn p w txid b v paid m _ hp hb hx hq hn hpaid hM =>
    by_cases e : s = selfSym w.peer
    · subst e
      rw [ha] at hb; cases hb
      exact ⟨_, setAsset_same _ _ _, rfl, rfl, fun h => absurd rfl h, fun _ hnm => absurd (selfSym_mirrored _) hnm⟩
    · rw [setAsset_other _ _ e]; exact same
  | axcOut t w b v r m hp hb hx hv =>
    by_cases e : s = t
    · subst e
      rw [ha] at hb; cases hb
      refine ⟨_, setAsset_same _ _ _, rfl, rfl, fun h => absurd rfl h, fun _ hnm => ?_⟩
      rw [hI.sp s w hp] at hnm
      exact absurd (selfSym_mirrored _) hnm
    · rw [setAsset_other _ _ e]; exact same

/-- After any history, an event that changes the supply of an issued asset (one not mirrored from another chain) carries the
authority of its owner, and the asset is mintable; the owner changes only with the owner's authority; type and mintability never
change; an asset never disappears. -/
theorem supply_changes_need_the_owner (S : Finset Ref) (st : State) (es : List Ev) (e : Ev) (h : History S st (es ++ [e])) (s : Sym)
    (a : Asset) (ha : (run st es).assets s = some a) :
    ∃ a', (run st (es ++ [e])).assets s = some a' ∧ a'.typ = a.typ ∧ a'.mintable = a.mintable ∧
      (a'.owner ≠ a.owner → ∃ o, a.owner = some o ∧ Auth e o) ∧
      (a'.supply ≠ a.supply → ¬ Mirrored s → a.mintable = true ∧ ∃ o, a.owner = some o ∧ Auth e o) := by
  have hI := h.prefix.inv
  rw [run_append]
  show ∃ a', (step (run st es) e).assets s = some a' ∧ _
  unfold step
  cases hap : apply (run st es) e with
  | none => exact ⟨a, ha, rfl, rfl, fun h => absurd rfl h, fun h => absurd rfl h⟩
  | some st' =>
    obtain ⟨qs, htr, _⟩ := apply_tr hI.base (h.within e (by simp)) hap
    exact tr_asset hI.base htr ha

theorem run_keeps_fixed {S : Finset Ref} : ∀ (es : List Ev) {st : State}, Inv S st → (∀ e ∈ es, e.In S) →
    (∀ s ∈ natives, total st.mem s S + mintSum s es < U64) → ∀ {s : Sym} {a : Asset}, st.assets s = some a →
    ∃ a', (run st es).assets s = some a' ∧ a'.typ = a.typ ∧ a'.mintable = a.mintable ∧
      (a.mintable = false → ¬ Mirrored s → a'.supply = a.supply)
  | [], _, _, _, _, _, a, ha => ⟨a, ha, rfl, rfl, fun _ _ => rfl⟩
  | e :: es, st, hI, hE, hB, s, a, ha => by
    have hB' : ∀ s ∈ natives, total st.mem s S + e.mint s + mintSum s es < U64 := by
      intro s hs
      have := hB s hs
      simp only [mintSum, List.map_cons, List.sum_cons] at this ⊢
      omega
    show ∃ a', (run (step st e) es).assets s = some a' ∧ _
    unfold step
    cases hap : apply st e with
    | none =>
      exact run_keeps_fixed es hI (fun x hx => hE x (by simp [hx]))
        (fun s hs => by have := hB' s hs; omega) ha
    | some st' =>
      obtain ⟨h1, h2⟩ := apply_inv hI (hE e (by simp)) (fun s hs => by have := hB' s hs; omega) hap
      obtain ⟨qs, htr, _⟩ := apply_tr hI.base (hE e (by simp)) hap
      obtain ⟨a1, b1, b2, b3, _, b5⟩ := tr_asset hI.base htr ha
      obtain ⟨a2, c1, c2, c3, c4⟩ := run_keeps_fixed es h1 (fun x hx => hE x (by simp [hx]))
        (fun s hs => by have := hB' s hs; have := h2 s hs; omega) b1
      refine ⟨a2, c1, c2.trans b2, c3.trans b3, fun hm hnm => ?_⟩
      rw [c4 (b3.trans hm) hnm]
      by_cases he : a1.supply = a.supply
      · exact he
      · have := (b5 he hnm).1
        rw [hm] at this; cases this

/-- The supply of an asset issued as not mintable is fixed for ever. -/
theorem unmintable_supply_fixed (S : Finset Ref) (st : State) (a b : List Ev) (h : History S st (a ++ b)) (s : Sym) (x : Asset)
    (hx : (run st a).assets s = some x) (hm : x.mintable = false) (hn : ¬ Mirrored s) :
    ∃ y, (run st (a ++ b)).assets s = some y ∧ y.supply = x.supply := by
  have hB := bound_rest (genesis_inv h.genesis) h.within h.bound
  rw [run_append]
  obtain ⟨y, h1, _, _, h4⟩ := run_keeps_fixed b h.prefix.inv (fun e he => h.within e (by simp [he])) hB hx
  exact ⟨y, h1, h4 hm hn⟩

/-- Issue events of a symbol. -/
def Issues (s : Sym) : Ev → Prop
  | .userIssue _ _ t _ _ _ _ => t = s
  | .bankIssue _ _ t _ _ _ _ => t = s
  | .govIssue _ t _ _ => t = s
  | _ => False

theorem issue_fails_if_exists {st : State} {e : Ev} {s : Sym} (he : Issues s e) (hx : st.assets s ≠ none) : apply st e = none := by
  have hx' : (st.assets s).isSome = true := Option.isSome_iff_ne_none.2 hx
  cases e <;> simp only [Issues] at he <;> subst he
  · simp only [apply, userIssue, hx']; simp
  · simp only [apply, bankIssue, hx']; simp
  · simp only [apply, govIssue, hx']; simp

theorem issue_creates {st st' : State} {e : Ev} {s : Sym} (he : Issues s e) (h : apply st e = some st') : st'.assets s ≠ none := by
  cases e <;> simp only [Issues] at he <;> subst he
  · simp only [apply, userIssue, Option.ite_none_left_eq_some] at h
    obtain ⟨_, _, _, _, _, _, h⟩ := h
    split at h; · cases h
    split at h; · cases h
    simp only [Option.some.injEq] at h
    subst h
    rw [setAsset_same]; simp
  · simp only [apply, bankIssue, Option.ite_none_left_eq_some] at h
    obtain ⟨_, _, _, _, _, h⟩ := h
    split at h; · cases h
    simp only [Option.ite_none_left_eq_some] at h
    obtain ⟨_, h⟩ := h
    split at h; · cases h
    simp only [Option.some.injEq] at h
    subst h
    rw [setAsset_same]; simp
  · simp only [apply, govIssue, Option.ite_none_left_eq_some] at h
    obtain ⟨_, _, _, _, _, h⟩ := h
    split at h; · cases h
    simp only [Option.some.injEq] at h
    subst h
    rw [setAsset_same]; simp

/-- A symbol is issued at most once, by whatever route: after a successful issue every later attempt fails. -/
theorem symbol_issued_once (S : Finset Ref) (st : State) (a b : List Ev) (e e' : Ev) (s : Sym) (h : History S st (a ++ e :: b))
    (he : Issues s e) (he' : Issues s e') (hok : apply (run st a) e ≠ none) : apply (run st (a ++ e :: b)) e' = none := by
  refine issue_fails_if_exists he' ?_
  obtain ⟨st1, h1⟩ := Option.ne_none_iff_exists'.1 hok
  have e2 : run st (a ++ [e]) = st1 := by
    rw [run_append]; show step (run st a) e = st1; unfold step; rw [h1]; rfl
  have h' : History S st ((a ++ [e]) ++ b) := by simpa using h
  have e1 : run st (a ++ e :: b) = run st1 b := by
    rw [← e2, ← run_append]; simp
  have hB1 : ∀ s ∈ natives, total st1.mem s S + mintSum s b < U64 := by
    rw [← e2]; exact bound_rest (genesis_inv h'.genesis) h'.within h'.bound
  have hex := issue_creates he h1
  obtain ⟨x, hx⟩ := Option.ne_none_iff_exists'.1 hex
  obtain ⟨y, h2, _⟩ := run_keeps_fixed b (by rw [← e2]; exact h'.prefix.inv) (fun x hx => h.within x (by simp [hx])) hB1 hx
  rw [e1, h2]; simp

/-- Minting by the owner: exactly the stated amount appears, on the owner's free balance and in the supply. -/
theorem owner_mint_exact (S : Finset Ref) (st : State) (es : List Ev) (env : Env) (who : Ref) (s : Sym) (v : Nat)
    (h : History S st (es ++ [.userUpdate env who s (.mint v)])) (hfee : env.updateFee = none) (st' : State)
    (hok : apply (run st es) (.userUpdate env who s (.mint v)) = some st') :
    ∃ a, (run st es).assets s = some a ∧ a.owner = some who ∧ a.mintable = true ∧ 0 < v ∧
      st'.assets s = some { a with supply := a.supply + v } ∧
      (bal st'.mem who s .free = bal (run st es).mem who s .free + v) ∧
      ∀ r t b, ¬ (r = who ∧ t = s ∧ b = .free) → bal st'.mem r t b = bal (run st es).mem r t b := by
  have hI := h.prefix.inv
  have hin := h.within (.userUpdate env who s (.mint v)) (by simp)
  simp only [apply, userUpdate] at hok
  cases ha : (run st es).assets s with
  | none => rw [ha] at hok; cases hok
  | some a =>
  simp only [ha, Option.ite_none_left_eq_some, hfee] at hok
  obtain ⟨_, _, hown, hok⟩ := hok
  have hown : a.owner = some who := by simpa using hown
  simp only [applyUpd] at hok
  have hnn := owner_not_native hI.base ha hown
  have hcap := hI.base.cap s a hnn ha
  split at hok; · cases hok
  rename_i _ st1 a1 hu
  simp only [Option.ite_none_left_eq_some] at hu
  obtain ⟨hv1, hmi, hv2, hu⟩ := hu
  split at hu; · cases hu
  rename_i _ m1 hm1
  simp only [Option.some.injEq, Prod.mk.injEq] at hu
  obtain ⟨rfl, rfl⟩ := hu
  simp only [Option.some.injEq] at hok
  subst hok
  rw [wadd_supply hcap (by omega)]
  have hwi : Req.Within ⟨who, s, .addFree, v, none⟩ S := ⟨hin.2.1, fun p e => (by cases e), hin.2.2 v rfl⟩
  have htot : ∀ t, total (run st es).mem t S + mintedAll t [⟨who, s, .addFree, v, none⟩] < U64 := by
    intro t
    by_cases hts : t = s
    · subst hts
      rw [hI.tot t hnn, sup_of ha]
      simp only [mintedAll_cons, mintedAll_nil, minted, and_self, if_true]
      unfold MAX at *; unfold U64; omega
    · have : mintedAll t [⟨who, s, .addFree, v, none⟩] = 0 := by simp [minted, Ne.symm hts]
      rw [this]
      by_cases htn : t ∈ natives
      · have := bound_rest (genesis_inv h.genesis) h.within h.bound t htn
        omega
      · rw [hI.tot t htn]
        have : sup (run st es) t ≤ MAX := by
          unfold sup
          split
          · exact Nat.zero_le _
          · rename_i _ x hx; exact hI.base.cap t x htn hx
        unfold MAX at this; unfold U64; omega
  obtain ⟨_, e, _⟩ := execAll_exact S _ _ m1 hI.wf (by simpa using hwi) htot (execAll_one hm1)
  refine ⟨a, rfl, hown, by simpa using hmi, by omega, setAsset_same _ _ _, ?_, fun r t b hn => ?_⟩
  · have := e who s .free
    simp only [sumReq_cons, sumReq_nil, reqDelta_addFree] at this
    simp [cell] at this
    show bal m1 who s .free = _
    omega
  · have := e r t b
    simp only [sumReq_cons, sumReq_nil, reqDelta_addFree] at this
    unfold cell at this
    rw [if_neg hn] at this
    show bal m1 r t b = _
    omega

/-- Balance operations at the end of a history act exactly. -/
theorem exact_after {S : Finset Ref} {st : State} {es : List Ev} (h : History S st es) {qs : List Req} {m : Mem}
    (hin : ∀ q ∈ qs, q.Within S) (hn : ∀ s ∈ natives, mintedAll s qs = 0) (hm : ∀ s, mintedAll s qs ≤ MAX)
    (hx : execAll (run st es).mem qs = some m) :
    ∀ r s b, (bal m r s b : Int) = bal (run st es).mem r s b + sumReq (reqDelta r s b) qs := by
  have hI := h.inv
  refine (execAll_exact S qs _ m hI.wf hin (fun s => ?_) hx).2.1
  by_cases hs : s ∈ natives
  · have := bound_rest (b := []) (genesis_inv h.genesis) (by simpa using h.within) (by simpa using h.bound) s hs
    rw [hn s hs]
    simp only [mintSum, List.map_nil, List.sum_nil] at this
    exact this
  · rw [hI.tot s hs]
    have h1 : sup (run st es) s ≤ MAX := by
      unfold sup
      split
      · exact Nat.zero_le _
      · rename_i _ x hx; exact hI.base.cap s x hs hx
    have h2 := hm s
    unfold MAX at h1 h2; unfold U64; omega

/-- Minting and burning through the bank contract: signed by the owner, exactly the stated amount, minted to the named account,
burned from the owner's own balance only. -/
theorem bank_mint_burn_exact (S : Finset Ref) (st : State) (es : List Ev) (env : Env) (auth : Ref → Bool) (mint : Bool) (target : Ref)
    (s : Sym) (v : Nat) (ok : Bool) (h : History S st (es ++ [.bankMintBurn env auth mint target s v ok])) (st' : State)
    (hok : apply (run st es) (.bankMintBurn env auth mint target s v ok) = some st') :
    ∃ a o, (run st es).assets s = some a ∧ a.owner = some o ∧ auth o = true ∧ a.mintable = true ∧ 0 < v ∧
      (mint = true → st'.assets s = some { a with supply := a.supply + v } ∧
        bal st'.mem target s .free = bal (run st es).mem target s .free + v) ∧
      (mint = false → target = o ∧ v ≤ a.supply ∧ st'.assets s = some { a with supply := a.supply - v } ∧
        bal st'.mem target s .free + v = bal (run st es).mem target s .free) ∧
      ∀ r t b, ¬ (r = target ∧ t = s ∧ b = .free) → bal st'.mem r t b = bal (run st es).mem r t b := by
  have hI := h.prefix.inv
  have hin := h.within (.bankMintBurn env auth mint target s v ok) (by simp)
  simp only [apply, bankMintBurn, Option.ite_none_left_eq_some] at hok
  obtain ⟨hv0, hok⟩ := hok
  cases ha : (run st es).assets s with
  | none => rw [ha] at hok; cases hok
  | some a =>
  simp only [ha, Option.ite_none_left_eq_some] at hok
  obtain ⟨hmi, hok⟩ := hok
  cases ho : a.owner with
  | none => rw [ho] at hok; cases hok
  | some o =>
  simp only [ho, Option.ite_none_left_eq_some] at hok
  obtain ⟨_, hau, _, _, hok⟩ := hok
  have hnn := owner_not_native hI.base ha ho
  have hcap := hI.base.cap s a hnn ha
  have hv1 : v ≤ MAX ∧ v < U64 := by
    have h1 : (2:Nat) ^ 62 ≤ MAX := by decide
    have h2 : MAX < U64 := by decide
    omega
  refine ⟨a, o, rfl, ho, by simpa using hau, by simpa using hmi, by omega, ?_⟩
  cases mint with
  | true =>
    simp only [if_true, Option.ite_none_left_eq_some] at hok
    obtain ⟨_, hok⟩ := hok
    split at hok; · cases hok
    rename_i _ m hm
    simp only [Option.some.injEq] at hok
    subst hok
    have e := exact_after h.prefix (qs := [⟨target, s, .addFree, v, none⟩])
      (by intro q hq; simp only [List.mem_singleton] at hq; subst hq; exact ⟨hin.2, fun p e => (by cases e), hv1.2⟩)
      (by intro t ht; have : s ≠ t := by rintro rfl; exact hnn ht
          simp [minted, this])
      (by intro t; simp only [mintedAll_cons, mintedAll_nil, minted]; split <;> omega) (execAll_one hm)
    refine ⟨fun _ => ⟨by rw [wadd_supply hcap hv1.1, ho]; exact setAsset_same _ _ _, ?_⟩, fun hf => (by cases hf), fun r t b hne => ?_⟩
    · have := e target s .free
      simp [reqDelta_addFree, cell] at this
      show bal m target s .free = _
      omega
    · have := e r t b
      simp only [sumReq_cons, sumReq_nil, reqDelta_addFree, cell, if_neg hne] at this
      show bal m r t b = _
      omega
  | false =>
    simp only [Bool.false_eq_true, if_false, Option.ite_none_left_eq_some] at hok
    obtain ⟨hto, hle, hok⟩ := hok
    split at hok; · cases hok
    rename_i _ m hm
    simp only [Option.some.injEq] at hok
    subst hok
    have hto : target = o := by simpa using hto
    have e := exact_after h.prefix (qs := [⟨target, s, .subFree, v, none⟩])
      (by intro q hq; simp only [List.mem_singleton] at hq; subst hq; exact ⟨hin.2, fun p e => (by cases e), hv1.2⟩)
      (by intro t ht; simp [minted])
      (by intro t; simp [minted]) (execAll_one hm)
    refine ⟨fun hf => (by cases hf), fun _ => ⟨hto, by omega, ?_, ?_⟩, fun r t b hne => ?_⟩
    · rw [wsub_eq (by omega) (by unfold MAX at hcap; unfold U64; omega), ho]; exact setAsset_same _ _ _
    · have := e target s .free
      simp [reqDelta_subFree, cell] at this
      show bal m target s .free + v = _
      omega
    · have := e r t b
      simp only [sumReq_cons, sumReq_nil, reqDelta_subFree, cell, if_neg hne] at this
      show bal m r t b = _
      omega

/-- A new asset: the whole supply goes to the owner, and the record says what was issued. -/
theorem user_issue_exact (S : Finset Ref) (st : State) (es : List Ev) (env : Env) (who : Ref) (s : Sym) (owner : Ref) (supply : Nat)
    (mi ok : Bool) (h : History S st (es ++ [.userIssue env who s owner supply mi ok])) (st' : State)
    (hok : apply (run st es) (.userIssue env who s owner supply mi ok) = some st') :
    (run st es).assets s = none ∧ 0 < supply ∧ supply ≤ 9000000000000000000 ∧
    (∃ a, st'.assets s = some a ∧ a.typ = .uia ∧ a.owner = some owner ∧ a.supply = supply ∧ a.mintable = mi) ∧
    bal st'.mem owner s .free = bal (run st es).mem owner s .free + supply ∧
    (∀ r b, ¬ (r = owner ∧ b = .free) → bal st'.mem r s b = bal (run st es).mem r s b) ∧
    total st'.mem WICC S = total (run st es).mem WICC S := by
  have hI := h.prefix.inv
  have hin := h.within (.userIssue env who s owner supply mi ok) (by simp)
  simp only [apply, userIssue, Option.ite_none_left_eq_some] at hok
  obtain ⟨_, _, hsu, _, hex, _, hok⟩ := hok
  split at hok; · cases hok
  rename_i _ m hm
  split at hok; · cases hok
  rename_i _ m' hm'
  simp only [Option.some.injEq] at hok
  subst hok
  have hno : (run st es).assets s = none := by simpa using hex
  have hnn : s ∉ natives := by
    intro hn
    obtain ⟨a, h1, _⟩ := hI.base.nat s hn
    rw [hno] at h1; cases h1
  have hsW : s ≠ WICC := by rintro rfl; exact hnn wicc_native
  have hwi : ∀ q ∈ assetFeeReqs env who env.issueFee ++ [⟨owner, s, .addFree, supply, none⟩], q.Within S := by
    intro q hq
    simp only [List.mem_append, List.mem_singleton] at hq
    rcases hq with hq | rfl
    · exact assetFeeReqs_within hin.1 hin.2.1 hin.1.issueFee q hq
    · exact ⟨hin.2.2.1, fun p e => (by cases e), hin.2.2.2⟩
  have hx := execAll_snoc (assetFee_some hm).2.2 hm'
  have e := exact_after h.prefix hwi
    (by intro t ht
        have : s ≠ t := by rintro rfl; exact hnn ht
        simp [(assetFeeReqs_quiet t).1, minted, this])
    (by intro t
        simp only [mintedAll_append, (assetFeeReqs_quiet t).1, mintedAll_cons, mintedAll_nil, minted]; split <;> omega) hx
  have hz : ∀ r b, sumReq (reqDelta r s b) (assetFeeReqs env who env.issueFee) = 0 := by
    intro r b
    unfold sumReq
    refine List.sum_eq_zero (fun x hx => ?_)
    simp only [List.mem_map] at hx
    obtain ⟨q, hq, rfl⟩ := hx
    have : q.sym = WICC := by
      simp only [assetFeeReqs, List.mem_cons] at hq
      rcases hq with rfl | hq
      · rfl
      · obtain ⟨d, _, j, rfl⟩ := shareReqs_mem hq; rfl
    unfold reqDelta
    rw [if_neg (by rw [this]; exact hsW)]
  refine ⟨hno, by omega, by unfold MAX at hsu; omega, ⟨_, setAsset_same _ _ _, rfl, rfl, rfl, rfl⟩, ?_, fun r b hne => ?_, ?_⟩
  · have := e owner s .free
    simp only [sumReq_append, hz, sumReq_cons, sumReq_nil, reqDelta_addFree, cell, and_self, if_true] at this
    show bal m' owner s .free = _
    omega
  · have := e r s b
    have hne' : ¬ (r = owner ∧ True ∧ b = .free) := fun ⟨a, _, c⟩ => hne ⟨a, c⟩
    simp only [sumReq_append, hz, sumReq_cons, sumReq_nil, reqDelta_addFree, cell, if_neg hne'] at this
    show bal m' r s b = _
    omega
  · have hbw := bound_rest (b := []) (genesis_inv h.prefix.genesis) (by simpa using h.prefix.within) (by simpa using h.prefix.bound)
    obtain ⟨_, _, t⟩ := execAll_exact S _ _ m' hI.wf hwi (fun t => by
      by_cases ht : t ∈ natives
      · have := hbw t ht
        have hst : s ≠ t := by rintro rfl; exact hnn ht
        simp only [mintSum, List.map_nil, List.sum_nil] at this
        simp [(assetFeeReqs_quiet t).1, minted, hst]
        exact this
      · rw [hI.tot t ht]
        have h1 : sup (run st es) t ≤ MAX := by
          unfold sup
          split
          · exact Nat.zero_le _
          · rename_i _ x hx; exact hI.base.cap t x ht hx
        have h2 : mintedAll t (assetFeeReqs env who env.issueFee ++ [⟨owner, s, .addFree, supply, none⟩]) ≤ MAX := by
          simp only [mintedAll_append, (assetFeeReqs_quiet t).1, mintedAll_cons, mintedAll_nil, minted]; split <;> omega
        unfold MAX at h1 h2; unfold U64; omega) hx
    have := t WICC
    simp [(assetFeeReqs_quiet WICC).1, (assetFeeReqs_quiet WICC).2, minted, burned, hsW] at this
    exact this

/-! ## C44: mirrored coins -/

/-- A withdrawal burns exactly the stated amount from the withdrawing account and from the supply. -/
theorem swap_out_exact (S : Finset Ref) (st : State) (es : List Ev) (env : Env) (who : Ref) (s : Sym) (al v : Nat)
    (h : History S st (es ++ [.axcOut env who s al v])) (st' : State) (hok : apply (run st es) (.axcOut env who s al v) = some st') :
    ∃ a, (run st es).assets s = some a ∧ v ≤ a.supply ∧ st'.assets s = some { a with supply := a.supply - v } ∧
      bal st'.mem who s .free + v = bal (run st es).mem who s .free ∧
      ∀ r t b, ¬ (r = who ∧ t = s ∧ b = .free) → bal st'.mem r t b = bal (run st es).mem r t b := by
  have hI := h.prefix.inv
  have hin := h.within (.axcOut env who s al v) (by simp)
  simp only [apply, axcOut] at hok
  cases hsp : (run st es).sp s with
  | none => rw [hsp] at hok; cases hok
  | some w =>
  simp only [hsp, Option.ite_none_left_eq_some] at hok
  obtain ⟨_, _, _, _, _, _, hok⟩ := hok
  split at hok; · cases hok
  rename_i _ m hm
  cases ha : (run st es).assets s with
  | none => rw [ha] at hok; cases hok
  | some a =>
  simp only [ha, Option.ite_none_left_eq_some] at hok
  obtain ⟨hle, hok⟩ := hok
  simp only [Option.some.injEq] at hok
  subst hok
  have hnn : s ∉ natives := fun hn => native_not_mirrored hn (by rw [hI.base.sp s w hsp]; exact selfSym_mirrored _)
  have hcap := hI.base.cap s a hnn ha
  have e := exact_after h.prefix (qs := [⟨who, s, .subFree, v, none⟩])
    (by intro q hq; simp only [List.mem_singleton] at hq; subst hq; exact ⟨hin.1, fun p e => (by cases e), hin.2⟩)
    (by intro t ht; simp [minted]) (by intro t; simp [minted]) (execAll_one hm)
  refine ⟨a, rfl, by omega, ?_, ?_, fun r t b hne => ?_⟩
  · rw [wsub_eq (by omega) (by unfold MAX at hcap; unfold U64; omega)]; exact setAsset_same _ _ _
  · have := e who s .free
    simp [reqDelta_subFree, cell] at this
    show bal m who s .free + v = _
    omega
  · have := e r t b
    simp only [sumReq_cons, sumReq_nil, reqDelta_subFree, cell, if_neg hne] at this
    show bal m r t b = _
    omega

/-- A deposit: the payments of `swap_in_split` happen, and the supply grows by the whole deposit. -/
theorem swap_in_exact (S : Finset Ref) (st : State) (es : List Ev) (env : Env) (peer : Sym) (al : Nat) (txid : String) (dest : Ref) (v : Nat)
    (h : History S st (es ++ [.axcIn env peer al txid dest v])) (st' : State)
    (hok : apply (run st es) (.axcIn env peer al txid dest v) = some st') :
    ∃ w a fee, (run st es).ps peer = some w ∧ w.status = 1 ∧ (run st es).assets (selfSym peer) = some a ∧
      st'.assets (selfSym peer) = some { a with supply := a.supply + v } ∧ 4 * fee ≤ v ∧
      (∀ x, bal st'.mem x (selfSym peer) .free = bal (run st es).mem x (selfSym peer) .free +
        env.voters.count x * (fee / (env.voters.length + 3)) +
        (if x = env.gateway then fee - env.voters.length * (fee / (env.voters.length + 3)) else 0) + (if x = dest then v - fee else 0)) ∧
      (∀ x t b, ¬ (t = selfSym peer ∧ b = .free) → bal st'.mem x t b = bal (run st es).mem x t b) ∧
      total st'.mem (selfSym peer) S = total (run st es).mem (selfSym peer) S + v := by
  have hI := h.prefix.inv
  have hin := h.within (.axcIn env peer al txid dest v) (by simp)
  simp only [apply, axcIn] at hok
  cases hps : (run st es).ps peer with
  | none => rw [hps] at hok; cases hok
  | some w =>
  have hpe := (hI.base.ps peer w hps).1
  subst hpe
  simp only [hps, Option.ite_none_left_eq_some] at hok
  obtain ⟨hst, _, _, hdust, hmax, _, hok⟩ := hok
  cases ha : (run st es).assets (selfSym w.peer) with
  | none => rw [ha] at hok; cases hok
  | some a =>
  simp only [ha, Option.ite_none_left_eq_some] at hok
  obtain ⟨_, _, _, _, hok⟩ := hok
  cases hm : execAll (run st es).mem (axcInReqs env (selfSym w.peer) dest (swapFee env.axcRatio v) v) with
  | none => rw [hm] at hok; cases hok
  | some m =>
  rw [hm] at hok
  simp only [Option.some.injEq] at hok
  subst hok
  have hnn : selfSym w.peer ∉ natives := fun hn => native_not_mirrored hn (selfSym_mirrored _)
  have hcap := hI.base.cap _ a hnn ha
  have hbw := bound_rest (b := []) (genesis_inv h.prefix.genesis) (by simpa using h.prefix.within) (by simpa using h.prefix.bound)
  obtain ⟨fee, h1, h2, h3, h4⟩ := swap_in_split S env _ m (selfSym w.peer) dest v hin.1 hin.2.1 hin.2.2
    (by unfold DUST at hdust; omega) hI.wf (fun t => by
      by_cases ht : t ∈ natives
      · have hb := hbw t ht
        have : ¬ t = selfSym w.peer := by rintro rfl; exact hnn ht
        simp only [mintSum, List.map_nil, List.sum_nil] at hb
        rw [if_neg this]; omega
      · rw [hI.tot t ht]
        have h1 : sup (run st es) t ≤ MAX := by
          unfold sup
          split
          · exact Nat.zero_le _
          · rename_i _ x hx; exact hI.base.cap t x ht hx
        unfold MAX at *; unfold U64; split <;> omega) hm
  refine ⟨w, a, fee, rfl, by simpa using hst, rfl, ?_, h1, h2, h3, ?_⟩
  · rw [wadd_supply hcap (by omega)]; exact setAsset_same _ _ _
  · have := h4 (selfSym w.peer)
    rw [if_pos rfl] at this
    exact this

/-- A deposit is minted at most once: after a successful swap of `txid` from a chain, every later swap of `txid` from that chain
fails, whatever coin, receiver and amount it names. -/
theorem deposit_minted_once (S : Finset Ref) (st : State) (a b : List Ev) (env env' : Env) (peer peer' : Sym) (al al' : Nat) (txid : String)
    (dest dest' : Ref) (v v' : Nat) (w w' : Swap) (h : History S st (a ++ .axcIn env peer al txid dest v :: b))
    (hw : (run st a).ps peer = some w) (hok : apply (run st a) (.axcIn env peer al txid dest v) ≠ none)
    (hw' : (run st (a ++ .axcIn env peer al txid dest v :: b)).ps peer' = some w') (hch : w'.chain = w.chain) :
    apply (run st (a ++ .axcIn env peer al txid dest v :: b)) (.axcIn env' peer' al' txid dest' v') = none := by
  have hI := h.inv
  generalize hE : (Ev.axcIn env peer al txid dest v) = e at *
  have hmem : (w.chain, txid) ∈ swapped (run st (a ++ e :: b)).log := by
    obtain ⟨st1, h1⟩ := Option.ne_none_iff_exists'.1 hok
    have e1 : run st (a ++ e :: b) = run st1 b := by
      rw [run_append]; show run (step (run st a) e) b = _; unfold step; rw [h1]; rfl
    have e2 : run st (a ++ [e]) = st1 := by
      rw [run_append]; show step (run st a) e = _; unfold step; rw [h1]; rfl
    have h' : History S st ((a ++ [e]) ++ b) := by simpa using h
    have hI1 : Inv S st1 := by rw [← e2]; exact h'.prefix.inv
    have hB1 : ∀ s ∈ natives, total st1.mem s S + mintSum s b < U64 := by
      rw [← e2]; exact bound_rest (genesis_inv h'.genesis) h'.within h'.bound
    obtain ⟨⟨l, hl⟩, _⟩ := run_grow b hI1 (fun x hx => h.within x (by simp [hx])) hB1
    rw [e1, hl, swapped_append, List.mem_append]
    left
    rw [← hE] at h1
    simp only [apply, axcIn, hw, Option.ite_none_left_eq_some] at h1
    obtain ⟨_, _, _, _, _, _, h1⟩ := h1
    split at h1; · cases h1
    simp only [Option.ite_none_left_eq_some] at h1
    obtain ⟨_, _, _, _, h1⟩ := h1
    split at h1; · cases h1
    simp only [Option.some.injEq] at h1
    subst h1
    show _ ∈ swapped (_ ++ [_])
    rw [swapped_append]
    simp [swapped, Done.key]
  obtain ⟨x, hx, hx0⟩ := hI.keysR _ hmem
  have : (present ((run st (a ++ e :: b)).mints (w'.chain, txid))).isSome = true := by
    rw [hch, hx]; simp [present, hx0]
  simp only [apply, axcIn, hw', this]
  simp

/-- In every history, for every mirrored coin: its balances sum to the recorded supply, the supply is what was swapped in less what
was swapped out, no other event changed it, and it is within the maximum. -/
theorem mirrored_supply (S : Finset Ref) (st : State) (es : List Ev) (h : History S st es) (s : Sym) (hm : Mirrored s) (a : Asset)
    (ha : (run st es).assets s = some a) :
    total (run st es).mem s S = a.supply ∧ a.supply ≤ 9000000000000000000 ∧
    a.supply + destroyed s (run st es).log = created s (run st es).log ∧
    (∀ d ∈ (run st es).log, d.into s ≠ 0 → ∃ c t v, d = .axcIn s c t v) ∧
    (∀ d ∈ (run st es).log, d.out s ≠ 0 → ∃ v, d = .axcOut s v) ∧ (swapped (run st es).log).Nodup := by
  have hI := h.inv
  have hn : s ∉ natives := fun hn => native_not_mirrored hn hm
  refine ⟨by rw [hI.tot s hn, sup_of ha], hI.base.cap s a hn ha, by rw [← sup_of ha]; exact hI.log s hn, fun d hd hi => ?_,
    fun d hd hi => ?_, hI.keysN⟩
  · have hok := hI.logOk d hd
    cases d <;> simp only [Done.into] at hi <;> simp only [Done.ok] at hok
    · rename_i t v; split at hi
      · rename_i e; subst e; exact absurd hm hok
      · exact absurd rfl hi
    · rename_i t v; split at hi
      · rename_i e; subst e; exact absurd hm hok
      · exact absurd rfl hi
    · exact absurd rfl hi
    · rename_i t c tx v; split at hi
      · rename_i e; subst e; exact ⟨c, tx, v, rfl⟩
      · exact absurd rfl hi
    · exact absurd rfl hi
  · have hok := hI.logOk d hd
    cases d <;> simp only [Done.out] at hi <;> simp only [Done.ok] at hok
    · exact absurd rfl hi
    · exact absurd rfl hi
    · rename_i t v; split at hi
      · rename_i e; subst e; exact absurd hm hok
      · exact absurd rfl hi
    · exact absurd rfl hi
    · rename_i t v; split at hi
      · rename_i e; subst e; exact ⟨v, rfl⟩
      · exact absurd rfl hi

/-! ## A history in which all of this happens -/

def acc0 : Finset Ref := {1, 2, 3, 4, 5, 6}

def tok0 : Token := fun b => if b = .free then 1000000000000000 else 0

/-- Six accounts with ten million WICC each; the native assets exist. -/
def g0 : State where
  mem := fun r => ⟨r, fun s => if s = "WICC" ∧ r ∈ ([1, 2, 3, 4, 5, 6] : List Nat) then some tok0 else none, 0, 0⟩
  assets := fun s => if s ∈ natives then some ⟨.nia, 3, none, 21000000000000000, false⟩ else none
  ps := fun _ => none
  sp := fun _ => none
  mints := fun _ => none
  log := []

/-- Reserve 5, gateway 6, producers 3 and 4, both approving. -/
def env0 : Env where
  acct := fun _ => true
  mature := fun _ => true
  fcoin := 5
  gateway := 6
  delegates := [3, 4]
  voters := [3, 4]
  issueFee := 55000000003
  assetRatio := 4000
  operRatio := 4000
  axcRatio := 30
  r35 := true
  updateFee := none

theorem bal_g0 (r : Ref) (s : Sym) (b : Bucket) :
    bal g0.mem r s b = if s = "WICC" ∧ r ∈ ([1, 2, 3, 4, 5, 6] : List Nat) ∧ b = .free then 1000000000000000 else 0 := by
  unfold bal g0 Account.token
  dsimp only
  by_cases h : s = "WICC" ∧ r ∈ ([1, 2, 3, 4, 5, 6] : List Nat)
  · rw [if_pos h]
    simp only [h.1, h.2, true_and, Option.getD_some, tok0]
  · rw [if_neg h, if_neg (fun h' => h ⟨h'.1, h'.2.1⟩)]
    rfl

theorem genesis0 : Genesis acc0 g0 := by
  refine ⟨fun r s b => ?_, fun s => ⟨fun h => ?_, fun h => ?_⟩, fun s hs => ?_, fun _ => rfl, fun _ => rfl, rfl⟩
  · rw [bal_g0]; split <;> decide
  · exact ⟨_, if_pos h, rfl⟩
  · exact if_neg h
  · have : s ≠ "WICC" := by rintro rfl; exact hs (by decide)
    simp [total, holding, bal_g0, this]

theorem envIn0 : env0.In acc0 :=
  ⟨by decide, by decide, by decide, by decide, by decide, fun f h => (by cases h), by decide, by decide, by decide⟩

def tx1 : String := "0xab5801a7d398351b8be11c439e05c5b3259aeabb1cd0d0d0d0d0d0d0d0d0d0d0"
def tx2 : String := "0xAB5801A7D398351B8BE11C439E05C5B3259AEABB1CD0D0D0D0D0D0D0D0D0D0D0"

def hist0 : List Ev :=
  [.userIssue env0 1 "GOLD" 2 500 true true, .userUpdate env0 2 "GOLD" (.mint 70), .bankMintBurn env0 (fun r => r = 2) true 1 "GOLD" 5 true,
   .bankMintBurn env0 (fun r => r = 2) false 2 "GOLD" 40 true, .operFee env0 1 1000001, .axcCoin env0 "ETH" 2 1,
   .axcIn env0 "ETH" 42 tx1 1 1000000, .axcOut env0 1 "mETH" 42 20000, .userUpdate env0 2 "GOLD" (.owner 1),
   .bankIssue env0 (fun r => r = 4) "IRON.1" 4 9 false true]

theorem history0 : History acc0 g0 hist0 := by
  refine ⟨genesis0, ?_, ?_⟩
  · intro e he
    simp only [hist0, List.mem_cons, List.not_mem_nil, or_false] at he
    rcases he with rfl | rfl | rfl | rfl | rfl | rfl | rfl | rfl | rfl | rfl
    · exact ⟨envIn0, by decide, by decide, by decide⟩
    · exact ⟨envIn0, by decide, fun v h => by cases h; decide⟩
    · exact ⟨envIn0, by decide⟩
    · exact ⟨envIn0, by decide⟩
    · exact ⟨envIn0, by decide, by decide⟩
    · trivial
    · exact ⟨envIn0, by decide, by decide⟩
    · exact ⟨by decide, by decide⟩
    · exact ⟨envIn0, by decide, fun v h => by cases h⟩
    · exact ⟨envIn0, by decide, by decide⟩
  · intro s hs
    simp only [natives, List.mem_cons, List.not_mem_nil, or_false] at hs
    rcases hs with rfl | rfl | rfl <;> decide +kernel

example : (run g0 hist0).log = [.issue "GOLD" 500, .mint "GOLD" 70, .mint "GOLD" 5, .burn "GOLD" 40, .axcIn "mETH" 2 tx1 1000000,
    .axcOut "mETH" 20000, .issue "IRON.1" 9] := by decide +kernel

example : (run g0 hist0).assets "GOLD" = some ⟨.uia, 3, some 1, 535, true⟩ ∧ (run g0 hist0).assets "IRON.1" = some ⟨.uia, 3, some 4, 9, false⟩ ∧
    (run g0 hist0).assets "mETH" = some ⟨.dia, 3, none, 980000, false⟩ ∧ bal (run g0 hist0).mem 2 "GOLD" .free = 530 ∧
    bal (run g0 hist0).mem 1 "mETH" .free = 977000 ∧ bal (run g0 hist0).mem 3 "mETH" .free = 600 ∧
    bal (run g0 hist0).mem 6 "mETH" .free = 1800 := by decide +kernel

/-- Refused: a second issue, minting by another account, minting an unmintable asset, the same deposit again. -/
example : apply (run g0 hist0) (.bankIssue env0 (fun _ => true) "GOLD" 3 1 true true) = none ∧
    apply (run g0 hist0) (.userUpdate env0 2 "GOLD" (.mint 1)) = none ∧
    apply (run g0 hist0) (.userUpdate env0 4 "IRON.1" (.mint 1)) = none ∧
    apply (run g0 hist0) (.axcIn env0 "ETH" 42 tx1 2 1000000) = none := by
  refine ⟨?_, ?_, ?_, ?_⟩ <;> (rw [← Option.isNone_iff_eq_none]; decide +kernel)

example : ∃ m, assetFee env0 g0.mem 1 55000000003 = some m ∧ bal m 1 "WICC" .free = 1000000000000000 - 55000000003 ∧
    bal m 5 "WICC" .free = 1000000000000000 + 22000000001 ∧ bal m 3 "WICC" .free = 1000000000000000 + 16500000001 ∧
    bal m 4 "WICC" .free = 1000000000000000 + 16500000001 := by
  cases h : assetFee env0 g0.mem 1 55000000003 with
  | none => exact absurd h (by rw [← Option.isNone_iff_eq_none]; decide +kernel)
  | some m =>
    have e : m = (assetFee env0 g0.mem 1 55000000003).getD g0.mem := by rw [h]; rfl
    refine ⟨m, rfl, ?_⟩
    rw [e]
    decide +kernel

/-- **Violated.** Foreign transaction ids are compared as strings. An id written with capital digits is a different string for the
same transaction: the same deposit is minted twice. -/
theorem deposit_minted_once_violated : ∃ st es, History acc0 st es ∧ ∃ t t' : String,
    t.toList.map Char.toLower = t'.toList.map Char.toLower ∧ (2, t) ∈ swapped (run st es).log ∧ (2, t') ∈ swapped (run st es).log ∧
    t ≠ t' ∧ total (run st es).mem "mETH" acc0 = 2000000 := by
  refine ⟨g0, [.axcCoin env0 "ETH" 2 1, .axcIn env0 "ETH" 42 tx1 1 1000000, .axcIn env0 "ETH" 42 tx2 1 1000000], ⟨genesis0, ?_, ?_⟩,
    tx1, tx2, by decide +kernel, by decide +kernel, by decide +kernel, by decide +kernel, by decide +kernel⟩
  · intro e he
    simp only [List.mem_cons, List.not_mem_nil, or_false] at he
    rcases he with rfl | rfl | rfl
    · trivial
    · exact ⟨envIn0, by decide, by decide⟩
    · exact ⟨envIn0, by decide, by decide⟩
  · intro s hs
    simp only [natives, List.mem_cons, List.not_mem_nil, or_false] at hs
    rcases hs with rfl | rfl | rfl <;> decide +kernel

end Verif.Asset
