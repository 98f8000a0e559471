import Verif.Ledger.Basic

/-! When a sequence of balance operations succeeds. -/
namespace Verif.Ledger

open Verif.Account

/-- The shape of a request that can fail only for lack of funds: no credits out of a peer, deals name a peer. -/
def Plain (q : Req) : Prop := q.op ≠ .nullOp ∧ q.op ≠ .addFree ∧ (q.op = .dexDeal → q.peer ≠ none)

theorem plain_no_mint {q : Req} (h : Plain q) (s : Sym) : minted s q = 0 := by
  simp [minted, h.2.1]

theorem opBal_plain {m : Mem} {q : Req} {S : Finset Ref} (hk : ∀ a ∈ S, ∀ b ∈ S, (m a).keyid = (m b).keyid → a = b)
    (hq : q.Within S) (hp : Plain q) (hs : ∀ b, source q.op = some b → q.amount ≤ bal m q.self q.sym b) : ∃ m', opBal m q = some m' := by
  have : (operateBalance m q.self q.sym q.op q.amount q.peer).1 = true := by
    rw [operate_succeeds_iff]
    refine ⟨fun p e hne h => hne (hk p (hq.2.1 p e) q.self hq.1 h), hp.1, hp.2.2, hs, fun h => absurd h hp.2.1⟩
  refine ⟨(operateBalance m q.self q.sym q.op q.amount q.peer).2, ?_⟩
  simp only [opBal, this, if_true]

/-- At every point the exact balance covers the amount drawn. -/
def Cov : (Ref → Sym → Bucket → Int) → List Req → Prop
  | _, [] => True
  | f, q :: qs => (∀ b, source q.op = some b → (q.amount : Int) ≤ f q.self q.sym b) ∧ Cov (fun r s b => f r s b + reqDelta r s b q) qs

theorem execAll_cov (S : Finset Ref) : ∀ (qs : List Req) (m : Mem), WF m → (∀ a ∈ S, ∀ b ∈ S, (m a).keyid = (m b).keyid → a = b) →
    (∀ q ∈ qs, q.Within S ∧ Plain q) → (∀ s, total m s S < U64) → Cov (fun r s b => bal m r s b) qs → ∃ m', execAll m qs = some m'
  | [], m, _, _, _, _, _ => ⟨m, rfl⟩
  | q :: qs, m, hwf, hk, hin, ht, hc => by
    have hq := hin q (by simp)
    obtain ⟨m1, h1⟩ := opBal_plain hk hq.1 hq.2 (by
      intro b hb
      have := hc.1 b hb
      dsimp only at this
      omega)
    have hm : ∀ s, mintedAll s [q] = 0 := fun s => by simp [plain_no_mint hq.2]
    obtain ⟨w, e, t⟩ := execAll_exact S [q] m m1 hwf (by simpa using hq.1) (by simpa [hm] using ht) (execAll_one h1)
    have hfr := fun r => (opBal_frame h1 r).1
    obtain ⟨m', h'⟩ := execAll_cov S qs m1 w (fun a ha b hb h => hk a ha b hb (by rw [← hfr a, ← hfr b]; exact h))
      (fun q' h' => hin q' (by simp [h'])) (fun s => by have := t s; have := ht s; have := hm s; omega) (by
        have : (fun r s b => (bal m1 r s b : Int)) = fun r s b => bal m r s b + reqDelta r s b q := by
          funext r s b
          rw [e]; simp
        rw [this]; exact hc.2)
    exact ⟨m', execAll_of_opBal h1 h'⟩

end Verif.Ledger
