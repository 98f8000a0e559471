import Verif.Cdp.Inv
/-! Histories of transactions on positions. -/
namespace Verif.Cdp

open Verif.Account Verif.Ledger Verif.Dbl

/-- One event: the transactions on positions, and anything else that happens to accounts without touching pledged amounts
(`PLEDGE` and `UNPLEDGE` occur only in tx/cdptx.cpp and tx/blockpricemediantx.cpp). -/
inductive Ev
  | stake (e : Env) (t : Stake)
  | redeem (e : Env) (t : Redeem)
  | liquidate (e : Env) (t : Liq)
  | settle (e : Env) (ids : List Nat)
  | force (e : Env) (fprice : Nat) (ps : List Pair)
  | other (qs : List Req)

def Ev.apply (σ : St) : Ev → Res St
  | .stake e t => Cdp.stake e σ t
  | .redeem e t => Verif.Cdp.redeem e σ t
  | .liquidate e t => Cdp.liquidate e σ t
  | .settle e ids => Cdp.settle e σ ids
  | .force e fp ps => Cdp.force e σ fp ps
  | .other qs =>
    match execAll σ.mem qs with
    | none => .fail
    | some m => .ok { σ with mem := m }

/-- A failing event changes nothing; a crash ends the history. -/
def run : St → List Ev → Option St
  | σ, [] => some σ
  | σ, e :: es =>
    match e.apply σ with
    | .ok σ' => run σ' es
    | .fail => run σ es
    | .crash => none

/-- The id a transaction may give to a new position: its own hash. -/
def Ev.newId : Ev → Option Nat
  | .stake _ t => if t.cdp = none then some t.id else none
  | _ => none

/-- All nodes convert doubles as `k` does, and numbers are 64-bit. -/
def Ev.Ok (k : Conv) : Ev → Prop
  | .stake e t => e.k = k ∧ e.Ok ∧ t.mint < U64 ∧ ∀ x ∈ t.assets, x.2 < U64
  | .redeem e _ => e.k = k ∧ e.Ok
  | .liquidate e t => e.k = k ∧ e.Ok ∧ t.amount < U64
  | .settle e _ => e.k = k ∧ e.Ok
  | .force e _ _ => e.k = k ∧ e.Ok
  | .other qs => ∀ q ∈ qs, q.op ≠ .pledge ∧ q.op ≠ .unpledge

/-- WUSD an event creates beyond the debt it records. -/
def Ev.extra (σ : St) : Ev → Int
  | .stake e t => uncovered e σ t
  | .liquidate e t => overMint e σ t
  | .other qs => net WUSD qs
  | _ => 0

def extras : St → List Ev → Int
  | _, [] => 0
  | σ, e :: es =>
    match e.apply σ with
    | .ok σ' => e.extra σ + extras σ' es
    | .fail => extras σ es
    | .crash => 0

theorem apply_step {k : Conv} {σ σ' : St} {ev : Ev} (I : Inv k σ) (hok : ev.Ok k)
    (hid : ∀ id, ev.newId = some id → find σ.cdps id = none) (h : ev.apply σ = .ok σ') :
    Inv k σ' ∧ (∀ id, find σ.cdps id = none → ev.newId ≠ some id → find σ'.cdps id = none) ∧
    ∃ qs, execAll σ.mem qs = some σ'.mem ∧ net WUSD qs = debtOf σ'.cdps WUSD - debtOf σ.cdps WUSD + ev.extra σ := by
  have key : ∀ {n x}, Step k σ σ' n x → n = ev.newId → x = ev.extra σ →
      Inv k σ' ∧ (∀ id, find σ.cdps id = none → ev.newId ≠ some id → find σ'.cdps id = none) ∧
      ∃ qs, execAll σ.mem qs = some σ'.mem ∧ net WUSD qs = debtOf σ'.cdps WUSD - debtOf σ.cdps WUSD + ev.extra σ := by
    intro n x s e1 e2
    subst e1; subst e2
    obtain ⟨qs, a, b, -⟩ := s.coins
    exact ⟨s.inv, s.ids, qs, a, b⟩
  cases ev with
  | stake e t =>
    obtain ⟨h1, -, h3, h4⟩ := hok
    exact key (stake_step h1 I (fun e => hid _ (by simp [Ev.newId, e])) h4 h3 h) rfl rfl
  | redeem e t => exact key (redeem_step hok.1 I h) rfl rfl
  | liquidate e t => exact key (liquidate_step hok.1 I hok.2.2 h) rfl rfl
  | settle e ids => exact key (settle_step hok.1 hok.2 I h) rfl rfl
  | force e fp ps => exact key (force_step hok.1 I h) rfl rfl
  | other qs =>
    change (match execAll σ.mem qs with | none => Res.fail | some m => Res.ok { σ with mem := m }) = .ok σ' at h
    cases hq : execAll σ.mem qs with
    | none => rw [hq] at h; cases h
    | some m =>
      rw [hq] at h
      cases h
      refine ⟨⟨good_mem I.good m, I.ok, fun r s => ?_⟩, fun _ h _ => h, qs, hq, ?_⟩
      · dsimp only
        rw [execAll_pledged_frame hq hok, I.pledged]
      · simp [Ev.extra]

theorem run_inv {k : Conv} : ∀ (es : List Ev) {σ σ' : St}, Inv k σ → (∀ ev ∈ es, ev.Ok k) → (es.filterMap Ev.newId).Nodup →
    (∀ id ∈ es.filterMap Ev.newId, find σ.cdps id = none) → run σ es = some σ' →
    Inv k σ' ∧ ∃ qs, execAll σ.mem qs = some σ'.mem ∧ net WUSD qs = debtOf σ'.cdps WUSD - debtOf σ.cdps WUSD + extras σ es
  | [], σ, σ', I, _, _, _, h => by
    cases h
    exact ⟨I, [], rfl, by simp [extras]⟩
  | ev :: es, σ, σ', I, hok, hnd, hid, h => by
    have hsub : ∀ id ∈ es.filterMap Ev.newId, id ∈ (ev :: es).filterMap Ev.newId := by
      intro id h; rw [List.mem_filterMap] at h ⊢
      obtain ⟨a, ha, e⟩ := h
      exact ⟨a, by simp [ha], e⟩
    have hnd' : (es.filterMap Ev.newId).Nodup := by
      rw [List.filterMap_cons] at hnd
      split at hnd
      · exact hnd
      · exact (List.nodup_cons.1 hnd).2
    unfold run at h
    unfold extras
    cases ha : ev.apply σ with
    | crash => rw [ha] at h; cases h
    | fail =>
      rw [ha] at h
      exact run_inv es I (fun x hx => hok x (by simp [hx])) hnd' (fun id hi => hid id (hsub id hi)) h
    | ok σ1 =>
      rw [ha] at h
      obtain ⟨I1, f1, qs, e1, n1⟩ := apply_step I (hok ev (by simp))
        (fun id hi => hid id (by rw [List.mem_filterMap]; exact ⟨ev, by simp, hi⟩)) ha
      obtain ⟨I2, qs2, e2, n2⟩ := run_inv es I1 (fun x hx => hok x (by simp [hx])) hnd' (fun id hi => by
        refine f1 id (hid id (hsub id hi)) (fun e => ?_)
        rw [List.filterMap_cons, e] at hnd
        exact (List.nodup_cons.1 hnd).1 hi) h
      refine ⟨I2, qs ++ qs2, execAll_trans e1 e2, ?_⟩
      dsimp only
      rw [net_append, n1, n2]; omega

/-- No positions yet. -/
def empty (m : Mem) : St := ⟨m, [], fun _ => none, fun _ => (0, 0), fun _ => [], fun _ => []⟩

theorem empty_inv (k : Conv) (m : Mem) (h : ∀ r s, bal m r s .pledged = 0) : Inv k (empty m) := by
  refine ⟨⟨List.Pairwise.nil, ?_, fun _ => List.Pairwise.nil, fun _ => List.Pairwise.nil, ?_, ?_, ?_, ?_, ?_⟩, ?_, ?_⟩
  · intro _ _ h; cases h
  · intro p q c; simp [empty, find]
  · intro p q c; simp [empty, find]
  · intro o p id; simp [empty, find]
  · intro p; simp [empty, stakedOf, ssum]
  · intro p; simp [empty, owedOf, ssum]
  · intro _ _ h; cases h
  · intro r s; simp [empty, lockedOf, ssum, h]

end Verif.Cdp
