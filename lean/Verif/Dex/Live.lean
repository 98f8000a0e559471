import Verif.Dex.Hist

/-! A deal whose checks pass can be executed. -/
namespace Verif.Dex

open Verif.Account Verif.Ledger

theorem cov_append {f : Ref → Sym → Bucket → Int} : ∀ {a b : List Req} {f : Ref → Sym → Bucket → Int}, Cov f a →
    Cov (fun r s k => f r s k + sumReq (reqDelta r s k) a) b → Cov f (a ++ b)
  | [], b, f, _, h => by simpa using h
  | q :: a, b, f, h1, h2 => by
    refine ⟨h1.1, cov_append (f := f) h1.2 ?_⟩
    have : (fun r s k => f r s k + reqDelta r s k q + sumReq (reqDelta r s k) a) = fun r s k => f r s k + sumReq (reqDelta r s k) (q :: a) := by
      funext r s k; rw [sumReq_cons]; omega
    rw [this]; exact h2

theorem cell_nonneg {r : Ref} {s : Sym} {b : Bucket} {r' : Ref} {s' : Sym} {b' : Bucket} {v : Int} (h : 0 ≤ v) : 0 ≤ cell r s b r' s' b' v := by
  unfold cell; split <;> omega

/-- What the amounts of a deal that passed the checks say. -/
theorem prep_covers {S : Finset Ref} {c : Ctx} {σ : State} {d : Deal} {p : Prep} {b s : Order} {bo so : Oper} (hI : Inv S σ)
    (h : PrepOk c σ d p b s bo so) (hne : d.buyId ≠ d.sellId) (hd : d.coin < H63 ∧ d.asset < H63) (r : Ref) (t : Sym) :
    (if r = b.owner ∧ t = b.coin then (d.coin : Int) + ((b.coinAmt : Int) - p.b.dealCoin) else 0) +
    (if r = s.owner ∧ t = s.asset then (d.asset : Int) else 0) ≤ bal σ.mem r t .frozen := by
  have h2 := hI.covers_two (Ne.symm hne) h.hb h.hs r t
  obtain ⟨okb, oks, eb, es, -⟩ := deal_orders hI h hd
  rw [owes_buy h.bBuy, owes_sell h.sSell] at h2
  have e1 : p.s.buy = false := by rw [h.s']; exact h.sSell
  have e2 := oks.sell e1
  have e3 : p.s.assetAmt = s.assetAmt := by rw [h.s']
  rw [eb]
  rw [es, e3] at e2
  by_cases q1 : (r = b.owner ∧ t = b.coin)
  · rw [if_pos q1] at h2 ⊢
    by_cases q2 : (r = s.owner ∧ t = s.asset)
    · rw [if_pos q2] at h2 ⊢; omega
    · rw [if_neg q2] at h2 ⊢; omega
  · rw [if_neg q1] at h2 ⊢
    by_cases q2 : (r = s.owner ∧ t = s.asset)
    · rw [if_pos q2] at h2 ⊢; omega
    · rw [if_neg q2] at h2 ⊢; omega

theorem dealReqs_cov {S : Finset Ref} {c : Ctx} {σ : State} {d : Deal} {p : Prep} {b s : Order} {bo so : Oper} (hI : Inv S σ)
    (h : PrepOk c σ d p b s bo so) (hne : d.buyId ≠ d.sellId) (hd : d.coin < H63 ∧ d.asset < H63) :
    Cov (fun r s b => bal σ.mem r s b) (dealReqs c.fcoin d p) := by
  have hc := prep_covers hI h hne hd
  obtain ⟨okb, -, eb, -, -⟩ := deal_orders hI h hd
  obtain ⟨-, -, -, -, f1, f2⟩ := fees_ok h.fees
  have b1 : p.b.owner = b.owner := by rw [h.b']
  have b2 : p.b.coin = b.coin := by rw [h.b']
  have b2a : p.b.asset = b.asset := by rw [h.b']
  have b3 : p.b.coinAmt = b.coinAmt := by rw [h.b']
  have b4 : p.b.buy = true := by rw [h.b']; exact h.bBuy
  have s1 : p.s.owner = s.owner := by rw [h.s']
  have s2 : p.s.asset = s.asset := by rw [h.s']
  have s5 : p.s.coin = s.coin := by rw [h.s']
  have hcl := okb.buy b4
  unfold dealReqs
  rw [b1, b2, b2a, s1, s2, s5, ← h.coin, ← h.asset, b3]
  rw [← h.asset] at hc
  rw [b3] at hcl
  generalize p.b.dealCoin = dc at *
  generalize b.owner = B at *
  generalize s.owner = O at *
  generalize b.coin = C at *
  generalize b.asset = A at *
  generalize p.fee.coinFriction = cf at *
  generalize p.fee.assetFriction = af at *
  generalize p.fee.coinMatch = cm at *
  generalize p.fee.assetMatch = am at *
  have n1 : ∀ r t k, (0 : Int) ≤ bal σ.mem r t k := fun r t k => by omega
  have hc1 := hc B C
  have hc2 := hc O A
  have hf1 := n1 O C .free
  have hf2 := n1 B A .free
  have hf3 := n1 c.fcoin C .free
  have hfz : ∀ a t v r k, reqDelta r t k ⟨a, C, .freeze, v, none⟩ = cell r t k a C .free (-v) + cell r t k a C .frozen v := by
    intro a t v r k
    exact reqDelta_move (op := .freeze) rfl r t k a C v
  generalize c.fcoin = F at *
  generalize p.bp = P at *
  generalize p.sellOp = X at *
  generalize p.buyOp = Y at *
  clear h hI okb
  have g1 : ∀ r t a, cell r t .frozen P A .free a = 0 ∧ cell r t .frozen X C .free a = 0 ∧ cell r t .frozen Y A .free a = 0 := by
    intro r t a; simp [cell]
  obtain ⟨u1, v1⟩ : ∃ u : Int, (cell O C .free P A .free af = u ∧ 0 ≤ u) := ⟨_, rfl, cell_nonneg (by omega)⟩
  obtain ⟨u2, v2⟩ : ∃ u : Int, (cell B A .free P A .free af = u ∧ 0 ≤ u) := ⟨_, rfl, cell_nonneg (by omega)⟩
  obtain ⟨u3, v3⟩ : ∃ u : Int, (cell B A .free X C .free cm = u ∧ 0 ≤ u) := ⟨_, rfl, cell_nonneg (by omega)⟩
  have c1 : (C = A) = (A = C) := propext eq_comm
  have c2 : (B = O) = (O = B) := propext eq_comm
  have c3 : (O = F) = (F = O) := propext eq_comm
  have c4 : (B = F) = (F = B) := propext eq_comm
  by_cases k1 : p.fr = true <;> by_cases k2 : cf > 0 <;> by_cases k3 : p.buyLeft = 0 ∧ p.b.limit = true ∧ b.coinAmt > dc <;>
    simp only [k1, k2, k3, if_true, if_false, List.cons_append, List.nil_append, List.append_nil, Cov, source, Option.some.injEq, forall_eq',
      reqDelta_dexDeal, reqDelta_subFree_peer, hfz, and_true, and_self, v1.1, v2.1, v3.1, g1, Bool.false_eq_true] <;>
    simp only [cell, c1, c2, c3, c4, reduceCtorEq, and_true, and_false, if_false, true_and, if_true] at hc1 hc2 ⊢ <;>
    (by_cases e1 : A = C <;> by_cases e2 : O = B <;> by_cases e3 : F = O <;> by_cases e4 : F = B <;>
      simp only [c1, c2, e1, e2, e3, e4, if_true, if_false, true_and, false_and, and_true, and_false, and_self] at hc1 hc2 ⊢ <;>
      omega)

/-- A deal whose checks pass is executed, whatever the balances, unless the id of the order for the friction fee is taken. -/
theorem deal_succeeds {S : Finset Ref} {c : Ctx} {σ : State} {i : Nat} {d : Deal} {p : Prep} (hI : Inv S σ) (hc : CtxIn S c)
    (hB : Bounded σ.mem S) (hk : ∀ a ∈ S, ∀ b ∈ S, (σ.mem a).keyid = (σ.mem b).keyid → a = b) (hd : d.coin < H63 ∧ d.asset < H63)
    (hne : d.buyId ≠ d.sellId) (hp : prep c σ d = .ok p) (hs : find σ.orders (c.sysId i) = none) : ∃ σ', deal c σ i d = .ok σ' := by
  obtain ⟨b, s, bo, so, h⟩ := prep_ok hp
  have hd' : d.coin < U64 ∧ d.asset < U64 := by unfold H63 at hd; unfold U64; omega
  obtain ⟨h1, h2⟩ := dealReqs_in hI hc h hd'
  obtain ⟨m, hm⟩ := execAll_cov S (dealReqs c.fcoin d p) σ.mem hI.wf hk h1 (fun s => by have := hB s; unfold H63 at this; unfold U64; omega)
    (dealReqs_cov hI h hne hd)
  obtain ⟨okb, -⟩ := deal_orders hI h hd
  have hb := okb.buy (by rw [h.b']; exact h.bBuy)
  have hl : ∃ l, frictionOrder c i p σ.orders = .ok l := by
    unfold frictionOrder create
    rw [hs]
    by_cases k : p.fr = true ∧ p.fee.coinFriction > 0
    · rw [if_pos k]; exact ⟨_, rfl⟩
    · rw [if_neg k]; exact ⟨_, rfl⟩
  obtain ⟨l, hl⟩ := hl
  refine ⟨⟨m, store (store l d.buyId p.buyLeft p.b) d.sellId p.sellLeft p.s⟩, ?_⟩
  unfold deal
  rw [hp]
  simp only [Res.bind, hm, hl]
  rw [if_neg (by omega)]

/-- The final assertion of a deal holds. -/
theorem deal_crash {S : Finset Ref} {c : Ctx} {σ : State} {i : Nat} {d : Deal} (hI : Inv S σ) (hB : Bounded σ.mem S)
    (hd : d.coin < U64 ∧ d.asset < U64) (h : deal c σ i d = .crash) : prep c σ d = .crash := by
  unfold deal at h
  rcases Res.bind_crash h with h | ⟨p, hp, h⟩
  · exact h
  · exfalso
    obtain ⟨b, s, bo, so, hk⟩ := prep_ok hp
    cases h1 : execAll σ.mem (dealReqs c.fcoin d p) with
    | none => rw [h1] at h; cases h
    | some m =>
      rw [h1] at h; dsimp only at h
      rcases Res.bind_crash h with h | ⟨l, hl, h⟩
      · unfold frictionOrder create at h
        split at h
        · split at h <;> cases h
        · cases h
      · have ham := deal_amounts hI hB hk hd h1
        obtain ⟨okb, -⟩ := deal_orders hI hk ham
        have hb := okb.buy (by rw [hk.b']; exact hk.bBuy)
        rw [if_neg (by omega)] at h
        cases h

theorem fees_no_crash (b s : Order) (bo so : Oper) (f : Option Nat) (fr tb : Bool) (d : Deal) : fees b s bo so f fr tb d ≠ .crash := by
  have hs : ∀ x y, subFee x y ≠ .crash := by intro x y h; unfold subFee at h; split at h <;> cases h
  have hr : ∀ x y z, byRatio x y z ≠ .crash := by intro x y z h; unfold byRatio at h; split at h <;> cases h
  have hm : ∀ o op t a, matchFee o op t a ≠ .crash := by
    intro o op t a h; unfold matchFee at h
    dsimp only at h
    generalize (if t = true then (paramsOf o op).taker else (paramsOf o op).maker) = ratio at h
    split at h
    · cases h
    · exact hr _ _ _ h
  have hf : frictions f fr d ≠ .crash := by
    intro h
    unfold frictions at h
    cases fr with
    | false => cases h
    | true =>
      cases f with
      | none => cases h
      | some r =>
        simp only [if_true] at h
        rcases Res.bind_crash h with h | ⟨x, -, h⟩
        · exact hr _ _ _ h
        rcases Res.bind_crash h with h | ⟨y, -, h⟩
        · exact hs _ _ h
        rcases Res.bind_crash h with h | ⟨z, -, h⟩
        · exact hr _ _ _ h
        rcases Res.bind_crash h with h | ⟨u, -, h⟩
        · exact hs _ _ h
        cases h
  intro h
  unfold fees at h
  rcases Res.bind_crash h with h | ⟨x, -, h⟩
  · exact hf h
  rcases Res.bind_crash h with h | ⟨y, -, h⟩
  · exact hm _ _ _ _ h
  rcases Res.bind_crash h with h | ⟨z, -, h⟩
  · exact hs _ _ h
  rcases Res.bind_crash h with h | ⟨u, -, h⟩
  · exact hm _ _ _ _ h
  rcases Res.bind_crash h with h | ⟨v, -, h⟩
  · exact hs _ _ h
  cases h

/-- The checks of a deal crash only on numbers near the limits of 64 bits. -/
theorem prep_crash {c : Ctx} {σ : State} {d : Deal} (h : prep c σ d = .crash) :
    18446744073709551615 ≤ d.asset * d.price / boost ∨ i64 (wsub (d.asset * d.price / boost) d.coin) = -9223372036854775808 := by
  unfold prep at h
  split at h
  · rename_i b s _ _
    split at h
    · dsimp only at h
      split at h
      · cases h
      · rcases Res.bind_crash h with h | ⟨x, hx, h'⟩
        · unfold calcCoin at h
          split at h
          · cases h
          · left; omega
        · clear h
          have hx := (calcCoin_ok hx).1
          subst hx
          rcases Res.bind_crash h' with h | ⟨y, -, h⟩
          · right
            unfold coinMatch at h
            dsimp only at h
            split at h
            · cases h
            · split at h
              · assumption
              · cases h
          · clear h'
            by_cases k1 : y = false
            · rw [if_pos k1] at h; cases h
            rw [if_neg k1] at h
            generalize (if b.limit = true then b.assetAmt else b.coinAmt) = lim at h
            generalize (if b.limit = true then wadd b.dealAsset d.asset else wadd b.dealCoin d.coin) = tot at h
            split at h
            · cases h
            split at h
            · cases h
            rcases Res.bind_crash h with h | ⟨z, -, h⟩
            · exact absurd h (fees_no_crash _ _ _ _ _ _ _ _)
            · cases h
    · cases h
  · cases h

end Verif.Dex
