import Verif.Utxo.Model

/-! Helper facts about the UTXO model. -/
namespace Verif.Utxo

open Verif.Account Verif.Ledger

theorem Out.bind_ok {α β : Type} {x : Out α} {f : α → Out β} {b : β} (h : x.bind f = .ok b) :
    ∃ a, x = .ok a ∧ f a = .ok b := by
  cases x with
  | ok a => exact ⟨a, rfl, h⟩
  | reject => cases h
  | crash => cases h

theorem Out.bind_crash {α β : Type} {x : Out α} {f : α → Out β} (h : x.bind f = .crash) :
    x = .crash ∨ ∃ a, x = .ok a ∧ f a = .crash := by
  cases x with
  | ok a => exact .inr ⟨a, rfl, h⟩
  | reject => cases h
  | crash => exact .inl rfl

def pt (i : In) : TxId × Nat := (i.prev, i.idx)

/-- Amount of the output an input refers to. -/
def prevAmt (chain : TxId → Option Tx) (i : In) : Nat :=
  match chain i.prev with
  | none => 0
  | some p => match p.vouts[i.idx]? with
    | none => 0
    | some o => o.amount

theorem wfold_eq {α : Type} (f : α → Nat) (l : List α) (t : Nat) (h : t + (l.map f).sum < U64) :
    l.foldl (fun t x => wadd t (f x)) t = t + (l.map f).sum := by
  induction l generalizing t with
  | nil => simp
  | cons a l ih =>
    simp only [List.map_cons, List.sum_cons] at h
    simp only [List.foldl_cons, List.map_cons, List.sum_cons]
    rw [wadd_eq (by omega), ih _ (by omega)]
    omega

theorem spendIns_spec {e : Env} {sp : Acct} {ins : List In} {s s' : St} {t t' : Nat}
    (h : spendIns e sp s ins t = some (s', t')) :
    s'.mem = s.mem ∧ s'.chain = s.chain ∧ s'.pending = s.pending ∧
    (ins.map pt).Nodup ∧ (∀ i ∈ ins, pt i ∈ s.utxos ∧ ∃ p o, s.chain i.prev = some p ∧ p.vouts[i.idx]? = some o) ∧
    s'.utxos = s.utxos.filter (fun x => decide (x ∉ ins.map pt)) ∧
    t' = ins.foldl (fun t i => wadd t (prevAmt s.chain i)) t := by
  induction ins generalizing s t with
  | nil =>
    simp only [spendIns, Option.some.injEq, Prod.mk.injEq] at h
    obtain ⟨rfl, rfl⟩ := h
    refine ⟨rfl, rfl, rfl, by simp, by simp, ?_, rfl⟩
    simp
  | cons i is ih =>
    simp only [spendIns] at h
    split at h
    · cases h
    rename_i hu
    split at h
    · cases h
    split at h
    · cases h
    rename_i p hp
    split at h
    · cases h
    rename_i o ho
    obtain ⟨a1, a2, a3, a4, a5, a6, a7⟩ := ih h
    simp only at a1 a2 a3 a5 a6 a7
    have hu' : pt i ∈ s.utxos := by simpa [pt] using hu
    refine ⟨a1, a2, a3, ?_, ?_, ?_, ?_⟩
    · rw [List.map_cons, List.nodup_cons]
      refine ⟨?_, a4⟩
      intro hm
      obtain ⟨j, hj, hji⟩ := List.mem_map.1 hm
      have := (a5 j hj).1
      rw [hji] at this
      simp [List.mem_filter, pt] at this
    · intro j hj
      rcases List.mem_cons.1 hj with rfl | hj
      · exact ⟨hu', p, o, hp, ho⟩
      · have := a5 j hj
        exact ⟨(List.mem_filter.1 this.1).1, this.2⟩
    · rw [a6, List.filter_filter]
      apply List.filter_congr
      intro x _
      simp only [List.map_cons, List.mem_cons, pt]
      by_cases h1 : x = (i.prev, i.idx) <;> simp [h1]
    · rw [a7, List.foldl_cons]
      simp [prevAmt, hp, ho]

theorem makeOuts_spec (id : TxId) (us : List (TxId × Nat)) (k : Nat) (os : List Outp) (t : Nat)
    (hn : us.Nodup) :
    (makeOuts id us k os t).1.Nodup ∧
    (∀ p, p ∈ (makeOuts id us k os t).1 ↔ p ∈ us ∨ (p.1 = id ∧ k ≤ p.2 ∧ p.2 < k + os.length)) ∧
    (makeOuts id us k os t).2 = os.foldl (fun t o => wadd t o.amount) t := by
  induction os generalizing us k t with
  | nil => simp only [makeOuts]; refine ⟨hn, ?_, rfl⟩; intro p; simp
  | cons o os ih =>
    simp only [makeOuts]
    obtain ⟨a, b, c⟩ := ih (if (id, k) ∈ us then us else (id, k) :: us) (k + 1) (wadd t o.amount) (by
      split
      · exact hn
      · rename_i h; exact List.nodup_cons.2 ⟨h, hn⟩)
    refine ⟨a, ?_, by rw [c]; rfl⟩
    intro p
    rw [b]
    have hm : p ∈ (if (id, k) ∈ us then us else (id, k) :: us) ↔ p ∈ us ∨ p = (id, k) := by
      split
      · rename_i h
        constructor
        · exact .inl
        · rintro (h' | rfl)
          · exact h'
          · exact h
      · simp [or_comm]
    rw [hm]
    obtain ⟨x, y⟩ := p
    simp only [Prod.mk.injEq, List.length_cons]
    constructor
    · rintro ((h | ⟨h1, h2⟩) | ⟨h1, h2, h3⟩)
      · exact .inl h
      · exact .inr ⟨h1, by omega, by omega⟩
      · exact .inr ⟨h1, by omega, by omega⟩
    · rintro (h | ⟨h1, h2, h3⟩)
      · exact .inl (.inl h)
      · rcases Nat.eq_or_lt_of_le h2 with h4 | h4
        · exact .inl (.inr ⟨h1, h4.symm⟩)
        · exact .inr ⟨h1, by omega, by omega⟩

/-- Everything an executed transaction did. -/
theorem execTx_spec {e : Env} {s s' : St} {t : Tx} (h : execTx e s t = some s') :
    ∃ m1 sp tin tout,
      (if t.fee > 0 then opBal s.mem ⟨t.payer, t.feeSym, .subFree, t.fee, none⟩ else some s.mem) = some m1 ∧
      e.acct t.uid = some sp ∧
      (t.vins.map pt).Nodup ∧
      (∀ i ∈ t.vins, pt i ∈ s.utxos ∧ ∃ p o, s.chain i.prev = some p ∧ p.vouts[i.idx]? = some o) ∧
      tin = t.vins.foldl (fun a i => wadd a (prevAmt s.chain i)) 0 ∧
      tout = t.vouts.foldl (fun a o => wadd a o.amount) 0 ∧
      s'.utxos = (makeOuts t.id (s.utxos.filter (fun x => decide (x ∉ t.vins.map pt))) 0 t.vouts 0).1 ∧
      s'.chain = s.chain ∧ s'.pending = t :: s.pending ∧
      (if tin < tout then opBal m1 ⟨t.payer, t.coin, .subFree, tout - tin, none⟩
        else if tin > tout then opBal m1 ⟨t.payer, t.coin, .addFree, tin - tout, none⟩
        else some m1) = some s'.mem := by
  unfold execTx at h
  split at h
  · cases h
  rename_i m1 hm1
  split at h
  · cases h
  rename_i sp hsp
  split at h
  · cases h
  rename_i s2 tin hs2
  obtain ⟨a1, a2, a3, a4, a5, a6, a7⟩ := spendIns_spec hs2
  simp only at a1 a2 a3 a5 a6 a7
  simp only at h
  split at h
  · cases h
  split at h
  · cases h
  split at h
  · cases h
  rename_i m2 hm2
  simp only [Option.some.injEq] at h
  subst h
  have hmk : (makeOuts t.id s2.utxos 0 t.vouts 0).2 = t.vouts.foldl (fun a o => wadd a o.amount) 0 := by
    have : ∀ us k os a, (makeOuts t.id us k os a).2 = os.foldl (fun a o => wadd a o.amount) a := by
      intro us k os
      induction os generalizing us k with
      | nil => intro a; rfl
      | cons o os ih => intro a; simp only [makeOuts]; rw [ih]; rfl
    exact this _ _ _ _
  refine ⟨m1, sp, tin, _, hm1, hsp, a4, a5, a7, hmk, by simp only [a6], a2, by simp only [a3], ?_⟩
  rw [a1] at hm2
  exact hm2

end Verif.Utxo
