import Verif.Dex.Lemmas

/-! The invariant of the order book is kept by every operation. -/
namespace Verif.Dex

open Verif.Account Verif.Ledger

theorem sorted_store {l : List (Nat × Order)} (h : SortedBy ltN l) (id left : Nat) (o : Order) : SortedBy ltN (store l id left o) := by
  unfold store
  split
  · exact sorted_del h id
  · exact sorted_put ltN_total h id o

theorem find_store (l : List (Nat × Order)) (id left : Nat) (o : Order) (k : Nat) :
    find (store l id left o) k = if k = id then (if left = 0 then none else some o) else find l k := by
  unfold store
  split
  · rw [find_del]
  · rw [find_put]

theorem ssum_store {l : List (Nat × Order)} (h : SortedBy ltN l) (f : Nat → Order → Int) (id left : Nat) (o : Order) :
    ssum f (store l id left o) = ssum f l - at0 f l id + if left = 0 then 0 else f id o := by
  unfold store
  split
  · rw [ssum_del ltN_total f h]; omega
  · rw [ssum_put ltN_total f h]

theorem frictionOrder_ok {c : Ctx} {i : Nat} {p : Prep} {l l' : List (Nat × Order)} (h : frictionOrder c i p l = .ok l') :
    (p.fr = true ∧ p.fee.coinFriction > 0 ∧ find l (c.sysId i) = none ∧
      l' = put ltN l (c.sysId i) (sysOrder c true p.s.coin "WGRT" p.fee.coinFriction)) ∨
    (¬ (p.fr = true ∧ p.fee.coinFriction > 0) ∧ l' = l) := by
  unfold frictionOrder at h
  split at h
  · rename_i k
    obtain ⟨h1, h2⟩ := create_ok h
    exact Or.inl ⟨k.1, k.2, h1, h2⟩
  · rename_i k
    cases h
    exact Or.inr ⟨k, rfl⟩

/-- In a limit buy the coins are exactly the calculated ones. -/
theorem coinMatch_limit {b : Order} {x y q : Nat} (hb : b.limit = true) (hx : x < U64) (hy : y < U64) (h : coinMatch b x y q = .ok true) : y = x := by
  unfold coinMatch at h
  simp only [hb, if_true, Res.ok.injEq, decide_eq_true_eq] at h
  exact i64_sub_zero hx hy h

theorem priceMatch_buy {b s : Order} {q : Nat} (hb : b.limit = true) (h : priceMatch b s q = true) : q ≤ b.price := by
  unfold priceMatch at h
  cases hs : s.limit <;> simp [hb, hs] at h <;> omega

theorem priceMatch_sell {b s : Order} {q : Nat} (hs : s.limit = true) (h : priceMatch b s q = true) : s.price ≤ q := by
  unfold priceMatch at h
  cases hb : b.limit <;> simp [hb, hs] at h <;> omega

/-- The two orders after an executed deal. -/
theorem deal_orders {S : Finset Ref} {c : Ctx} {σ : State} {d : Deal} {p : Prep} {b s : Order} {bo so : Oper} (hI : Inv S σ)
    (h : PrepOk c σ d p b s bo so) (hd : d.coin < H63 ∧ d.asset < H63) :
    OrderOk S p.b ∧ OrderOk S p.s ∧ p.b.dealCoin = b.dealCoin + d.coin ∧ p.s.dealAsset = s.dealAsset + d.asset ∧
    (b.limit = true → p.b.dealAsset = b.dealAsset + d.asset) := by
  have hb := hI.ok _ _ h.hb
  have hs := hI.ok _ _ h.hs
  have c1 := hb.coinLt
  have c2 := hb.assetLt
  have c3 := hs.coinLt
  have c4 := hs.assetLt
  have c5 := hb.buy h.bBuy
  have c6 := hs.sell h.sSell
  have sl := h.sellLim
  have hU : U64 = 18446744073709551616 := rfl
  have hH : H63 = 9223372036854775808 := rfl
  have w1 : wadd b.dealCoin d.coin = b.dealCoin + d.coin := wadd_eq (by omega)
  have w2 : wadd s.dealAsset d.asset = s.dealAsset + d.asset := wadd_eq (by omega)
  rw [w2] at sl
  have hps : OrderOk S p.s := by
    rw [h.s']
    refine ⟨hs.owner, hs.coinLt, hs.assetLt, ?_, ?_, ?_⟩
    · intro k; dsimp only at k; rw [h.sSell] at k; cases k
    · intro k; dsimp only at k; rw [h.sSell] at k; cases k
    · intro _; dsimp only; rw [w2]; exact sl.1
  have hpb : OrderOk S p.b ∧ (b.limit = true → p.b.dealAsset = b.dealAsset + d.asset) := by
    rw [h.b']
    have bl := h.buyLim
    cases hl : b.limit with
    | false =>
      simp only [hl, Bool.false_eq_true, if_false] at bl
      refine ⟨⟨hb.owner, hb.coinLt, hb.assetLt, fun _ => bl.1, ?_, ?_⟩, by simp⟩
      · intro _ k; dsimp only at k; simp [hl] at k
      · intro k; dsimp only at k; rw [h.bBuy] at k; cases k
    | true =>
      simp only [hl, if_true] at bl
      obtain ⟨l1, l2, l3⟩ := hb.limit h.bBuy hl
      have w3 : wadd b.dealAsset d.asset = b.dealAsset + d.asset := wadd_eq (by omega)
      rw [w3] at bl
      have hcoin := coinMatch_limit hl (by have := h.calcLt; omega) (by omega) h.amount
      have hp := priceMatch_buy hl h.price
      have key : (b.dealCoin + d.coin) * boost ≤ (b.dealAsset + d.asset) * b.price := by
        have k1 : d.coin * boost ≤ d.asset * d.price := by rw [hcoin]; exact Nat.div_mul_le_self _ _
        have k2 : d.asset * d.price ≤ d.asset * b.price := Nat.mul_le_mul_left _ hp
        rw [Nat.add_mul, Nat.add_mul]; omega
      refine ⟨⟨hb.owner, hb.coinLt, hb.assetLt, ?_, ?_, ?_⟩, fun _ => w3⟩
      · intro _; dsimp only; rw [w1, l2]
        rw [Nat.le_div_iff_mul_le (by unfold boost; omega)]
        exact Nat.le_trans key (Nat.mul_le_mul_right _ bl.1)
      · intro _ _; dsimp only; rw [w1, w3]; exact ⟨bl.1, l2, key⟩
      · intro k; dsimp only at k; rw [h.bBuy] at k; cases k
  exact ⟨hpb.1, hps, by rw [h.b']; exact w1, by rw [h.s']; exact w2, hpb.2⟩

theorem frozenSym_buy {o : Order} (h : o.buy = true) : frozenSym o = o.coin := by simp [frozenSym, h]
theorem frozenSym_sell {o : Order} (h : o.buy = false) : frozenSym o = o.asset := by simp [frozenSym, h]
theorem owes_buy {o : Order} (h : o.buy = true) (r : Ref) (s : Sym) :
    owes o r s = if r = o.owner ∧ s = o.coin then (o.coinAmt : Int) - o.dealCoin else 0 := by simp [owes, frozenSym, leftAmt, h]
theorem owes_sell {o : Order} (h : o.buy = false) (r : Ref) (s : Sym) :
    owes o r s = if r = o.owner ∧ s = o.asset then (o.assetAmt : Int) - o.dealAsset else 0 := by simp [owes, frozenSym, leftAmt, h]

theorem sysOrder_ok {S : Finset Ref} {c : Ctx} (hc : CtxIn S c) (buy : Bool) (coin asset : Sym) {a : Nat} (ha : a < H63) :
    OrderOk S (sysOrder c buy coin asset a) := by
  unfold sysOrder H63 at *
  refine ⟨hc.fcoin, ?_, ?_, ?_, ?_, ?_⟩ <;> dsimp only <;> cases buy <;> simp [H63] <;> omega

/-- The exact effect of an executed deal on balances. -/
theorem deal_exact {S : Finset Ref} {c : Ctx} {σ : State} {m' : Mem} {d : Deal} {p : Prep} {b s : Order} {bo so : Oper} (hI : Inv S σ)
    (hc : CtxIn S c) (hB : Bounded σ.mem S) (h : PrepOk c σ d p b s bo so) (hd : d.coin < U64 ∧ d.asset < U64)
    (he : execAll σ.mem (dealReqs c.fcoin d p) = some m') :
    WF m' ∧ (∀ r t b, (bal m' r t b : Int) = bal σ.mem r t b + sumReq (reqDelta r t b) (dealReqs c.fcoin d p)) ∧
    (∀ t, total m' t S = total σ.mem t S) := by
  obtain ⟨h1, h2⟩ := dealReqs_in hI hc h hd
  obtain ⟨w, e, t⟩ := execAll_exact S _ σ.mem m' hI.wf (fun q hq => (h1 q hq).1)
    (fun t => by have := hB t; rw [(h2 t).1]; unfold H63 at this; unfold U64; omega) he
  exact ⟨w, e, fun s => by have := t s; rw [(h2 s).1, (h2 s).2] at this; omega⟩

/-- A conditional as a linear function. -/
theorem ite_fun (P : Prop) [Decidable P] : ∃ g : Int → Int, (∀ x, (if P then x else 0) = g x) ∧ ((∀ x, g x = x) ∨ ∀ x, g x = 0) := by
  refine ⟨fun x => if P then x else 0, fun _ => rfl, ?_⟩
  by_cases h : P
  · exact Or.inl fun x => if_pos h
  · exact Or.inr fun x => if_neg h

theorem deal_inv {S : Finset Ref} {c : Ctx} {σ σ' : State} {i : Nat} {d : Deal} (hI : Inv S σ) (hc : CtxIn S c) (hB : Bounded σ.mem S)
    (hd : d.coin < U64 ∧ d.asset < U64) (hne : d.buyId ≠ d.sellId) (h : deal c σ i d = .ok σ') :
    Inv S σ' ∧ ∀ t, total σ'.mem t S = total σ.mem t S := by
  obtain ⟨p, l, hp, he, hl, hna, ho⟩ := deal_ok h
  obtain ⟨b, s, bo, so, hk⟩ := prep_ok hp
  obtain ⟨w, ex, tt⟩ := deal_exact hI hc hB hk hd he
  have ham := deal_amounts hI hB hk hd he
  obtain ⟨okb, oks, eb, es, el⟩ := deal_orders hI hk ham
  obtain ⟨-, -, -, -, f1, f2⟩ := fees_ok hk.fees
  have hU : U64 = 18446744073709551616 := rfl
  have hH : H63 = 9223372036854775808 := rfl
  have b1 : p.b.owner = b.owner := by rw [hk.b']
  have b2 : p.b.coin = b.coin := by rw [hk.b']
  have b3 : p.b.coinAmt = b.coinAmt := by rw [hk.b']
  have b4 : p.b.buy = true := by rw [hk.b']; exact hk.bBuy
  have b5 : p.b.limit = b.limit := by rw [hk.b']
  have s1 : p.s.owner = s.owner := by rw [hk.s']
  have s2 : p.s.asset = s.asset := by rw [hk.s']
  have s3 : p.s.assetAmt = s.assetAmt := by rw [hk.s']
  have s4 : p.s.buy = false := by rw [hk.s']; exact hk.sSell
  have s5 : p.s.coin = s.coin := by rw [hk.s']
  -- the table with the friction order
  have hsys := frictionOrder_ok hl
  have fbuy : find l d.buyId = some b := by
    rcases hsys with ⟨-, -, hn, rfl⟩ | ⟨-, rfl⟩
    · rw [find_put, if_neg (by intro e; rw [← e, hk.hb] at hn; cases hn)]; exact hk.hb
    · exact hk.hb
  have fsell : find l d.sellId = some s := by
    rcases hsys with ⟨-, -, hn, rfl⟩ | ⟨-, rfl⟩
    · rw [find_put, if_neg (by intro e; rw [← e, hk.hs] at hn; cases hn)]; exact hk.hs
    · exact hk.hs
  have hsl : SortedBy ltN l := by
    rcases hsys with ⟨-, -, hn, rfl⟩ | ⟨-, rfl⟩
    · exact sorted_put ltN_total hI.sorted _ _
    · exact hI.sorted
  have hsl2 := sorted_store hsl d.buyId p.buyLeft p.b
  refine ⟨⟨w, ?_, ?_, ?_⟩, tt⟩
  · rw [ho]; exact sorted_store hsl2 _ _ _
  · intro id o hf
    rw [ho, find_store, find_store] at hf
    by_cases k1 : id = d.sellId
    · rw [if_pos k1] at hf
      split at hf
      · cases hf
      · cases hf; exact oks
    · rw [if_neg k1] at hf
      by_cases k2 : id = d.buyId
      · rw [if_pos k2] at hf
        split at hf
        · cases hf
        · cases hf; exact okb
      · rw [if_neg k2] at hf
        rcases hsys with ⟨-, -, hn, rfl⟩ | ⟨-, rfl⟩
        · rw [find_put] at hf
          split at hf
          · cases hf; exact sysOrder_ok hc _ _ _ (by omega)
          · exact hI.ok _ _ hf
        · exact hI.ok _ _ hf
  · intro r t
    rw [ex, dealReqs_frozen, hI.frozen, ho, ssum_store hsl2, ssum_store hsl]
    rw [at0_some fbuy, at0_some (v := s) (by rw [find_store, if_neg (Ne.symm hne)]; exact fsell)]
    have hfric : ssum (fun _ o => owes o r t) l = ssum (fun _ o => owes o r t) σ.orders +
        (if p.fr = true ∧ p.fee.coinFriction > 0 ∧ r = c.fcoin ∧ t = p.s.coin then (p.fee.coinFriction : Int) else 0) := by
      rcases hsys with ⟨k1, k2, hn, rfl⟩ | ⟨k, rfl⟩
      · rw [ssum_put ltN_total _ hI.sorted, at0_none hn, owes_buy rfl]
        simp [sysOrder, k1, k2]
      · have : ¬ (p.fr = true ∧ p.fee.coinFriction > 0 ∧ r = c.fcoin ∧ t = p.s.coin) := fun h => k ⟨h.1, h.2.1⟩
        simp [this]
    rw [hfric]
    rw [owes_buy hk.bBuy, owes_buy b4, owes_sell hk.sSell, owes_sell s4, b1, b2, b3, s1, s2, s3, s5, eb, es]
    have hbl : p.buyLeft = 0 → ¬ b.limit = true → (b.coinAmt : Int) = b.dealCoin + d.coin := by
      intro k1 k2
      have := hk.buyLim
      rw [if_neg k2] at this
      have e : wadd b.dealCoin d.coin = b.dealCoin + d.coin := by
        have := eb; rw [hk.b'] at this; exact this
      rw [e] at this
      omega
    have hsl0 : p.sellLeft = 0 → (s.assetAmt : Int) = s.dealAsset + d.asset := by
      intro k1
      have := hk.sellLim
      have e : wadd s.dealAsset d.asset = s.dealAsset + d.asset := by
        have := es; rw [hk.s'] at this; exact this
      rw [e] at this
      omega
    have hc2 := okb.buy b4
    rw [b3, eb] at hc2
    rw [b5]
    clear hna hd ham f1 f2
    generalize (if p.fr = true ∧ p.fee.coinFriction > 0 ∧ r = c.fcoin ∧ t = s.coin then (p.fee.coinFriction : Int) else 0) = z
    have hre : (if (p.buyLeft = 0 ∧ b.limit = true ∧ b.coinAmt > b.dealCoin + d.coin) ∧ r = b.owner ∧ t = b.coin then
        -((b.coinAmt : Int) - (b.dealCoin + d.coin : Nat)) else 0) =
        if r = b.owner ∧ t = b.coin then (if p.buyLeft = 0 ∧ b.limit = true ∧ b.coinAmt > b.dealCoin + d.coin then
        -((b.coinAmt : Int) - (b.dealCoin + d.coin : Nat)) else 0) else 0 := by
      by_cases q : r = b.owner ∧ t = b.coin
      · rw [if_pos q]; simp only [q, and_self, and_true]
      · rw [if_neg q, if_neg (fun h => q h.2)]
    rw [hre]; clear hre hfric
    obtain ⟨g1, e1, k1⟩ := ite_fun (r = b.owner ∧ t = b.coin)
    obtain ⟨g2, e2, k2⟩ := ite_fun (r = s.owner ∧ t = s.asset)
    simp only [e1, e2]
    rcases k1 with k1 | k1 <;> rcases k2 with k2 | k2 <;> simp only [k1, k2] <;>
    by_cases q1 : p.buyLeft = 0 <;> by_cases q2 : b.limit = true <;> by_cases q3 : p.sellLeft = 0 <;>
      by_cases q6 : b.coinAmt > b.dealCoin + d.coin <;>
      simp only [q1, q2, q3, q6, eq_self, if_true, if_false, true_and, false_and, and_true, and_false, not_true, not_false_iff, true_implies,
        false_implies, Bool.false_eq_true] at hbl hsl0 ⊢ <;> omega

end Verif.Dex
