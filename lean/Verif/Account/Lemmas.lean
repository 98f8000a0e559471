import Verif.Account.Model
namespace Verif.Account

@[simp] theorem token_setToken (a : Account) (s s' : Sym) (t : Token) :
    (a.setToken s t).token s' = if s' = s then t else a.token s' := by
  unfold Account.token Account.setToken; split <;> simp_all

@[simp] theorem bal_setBal (m : Mem) (r r' : Ref) (s s' : Sym) (b b' : Bucket) (v : Nat) :
    bal (setBal m r s b v) r' s' b' = if r' = r ∧ s' = s ∧ b' = b then v else bal m r' s' b' := by
  unfold bal setBal
  by_cases hr : r' = r
  · subst hr
    by_cases hs : s' = s
    · subst hs; simp
    · simp [hs]
  · simp [hr]

@[simp] theorem bal_touch (m : Mem) (r r' : Ref) (s s' : Sym) (b : Bucket) :
    bal (touch m r s) r' s' b = bal m r' s' b := by
  unfold bal touch
  by_cases hr : r' = r
  · subst hr
    by_cases hs : s' = s
    · subst hs; simp
    · simp [hs]
  · simp [hr]

@[simp] theorem keyid_setBal (m : Mem) (r r' : Ref) (s : Sym) (b : Bucket) (v : Nat) :
    (setBal m r s b v r').keyid = (m r').keyid := by
  unfold setBal Account.setToken; split <;> simp_all

@[simp] theorem keyid_touch (m : Mem) (r r' : Ref) (s : Sym) :
    (touch m r s r').keyid = (m r').keyid := by
  unfold touch Account.setToken; split <;> simp_all

@[simp] theorem perms_setBal (m : Mem) (r r' : Ref) (s : Sym) (b : Bucket) (v : Nat) :
    (setBal m r s b v r').perms = (m r').perms := by
  unfold setBal Account.setToken; split <;> simp_all

@[simp] theorem perms_touch (m : Mem) (r r' : Ref) (s : Sym) :
    (touch m r s r').perms = (m r').perms := by
  unfold touch Account.setToken; split <;> simp_all

@[simp] theorem votes_setBal (m : Mem) (r r' : Ref) (s : Sym) (b : Bucket) (v : Nat) :
    (setBal m r s b v r').receivedVotes = (m r').receivedVotes := by
  unfold setBal Account.setToken; split <;> simp_all

@[simp] theorem votes_touch (m : Mem) (r r' : Ref) (s : Sym) :
    (touch m r s r').receivedVotes = (m r').receivedVotes := by
  unfold touch Account.setToken; split <;> simp_all

end Verif.Account

namespace Verif.Account

/-- The two-object guard of `OperateBalance` (account.cpp:42) for an optional peer. -/
def aliasBad (m : Mem) (self : Ref) : Option Ref → Prop
  | some p => p ≠ self ∧ (m p).keyid = (m self).keyid
  | none => False

theorem move_true {m m' : Mem} {self : Ref} {s : Sym} {src dst : Bucket} {v : Nat}
    (h : move m self s src dst v = (true, m')) :
    v ≤ bal m self s src ∧
    m' = setBal (setBal m self s src (wsub (bal m self s src) v)) self s dst
          (wadd (bal (setBal m self s src (wsub (bal m self s src) v)) self s dst) v) := by
  unfold move at h
  split at h
  · simp at h
  · simp only [Prod.mk.injEq, true_and] at h; exact ⟨by omega, h.symm⟩

/-- Everything a successful `operateBalance` tells us: the guard passed, and the resulting memory. -/
theorem operate_true {m m' : Mem} {self : Ref} {s : Sym} {op : Op} {v : Nat} {peer : Option Ref}
    (h : operateBalance m self s op v peer = (true, m')) :
    ¬ aliasBad m self peer ∧
    match op with
    | .addFree =>
      let m1 := setBal (touch m self s) self s .free (wadd (bal m self s .free) v)
      match peer with
      | none => m' = m1
      | some p => v ≤ bal m1 p s .free ∧ m' = setBal m1 p s .free (wsub (bal m1 p s .free) v)
    | .subFree =>
      let m1 := setBal (touch m self s) self s .free (wsub (bal m self s .free) v)
      v ≤ bal m self s .free ∧
      match peer with
      | none => m' = m1
      | some p => m' = setBal m1 p s .free (wadd (bal m1 p s .free) v)
    | .stake => move (touch m self s) self s .free .staked v = (true, m')
    | .unstake => move (touch m self s) self s .staked .free v = (true, m')
    | .freeze => move (touch m self s) self s .free .frozen v = (true, m')
    | .unfreeze => move (touch m self s) self s .frozen .free v = (true, m')
    | .vote => move (touch m self s) self s .free .voted v = (true, m')
    | .unvote => move (touch m self s) self s .voted .free v = (true, m')
    | .pledge => move (touch m self s) self s .free .pledged v = (true, m')
    | .unpledge => move (touch m self s) self s .pledged .free v = (true, m')
    | .dexDeal =>
      ∃ p, peer = some p ∧ v ≤ bal m self s .frozen ∧
        m' = setBal (setBal (touch m self s) self s .frozen (wsub (bal m self s .frozen) v)) p s .free
              (wadd (bal (setBal (touch m self s) self s .frozen (wsub (bal m self s .frozen) v)) p s .free) v)
    | .nullOp => False := by
  have hg : ¬ aliasBad m self peer := by
    intro hb
    cases peer with
    | none => exact hb
    | some p =>
      have : p ≠ self ∧ (m p).keyid = (m self).keyid := hb
      simp [operateBalance, this] at h
  refine ⟨hg, ?_⟩
  cases peer with
  | none =>
    cases op <;> simp only [operateBalance, bal_touch, Bool.false_eq_true, if_false] at h ⊢ <;>
      first
      | exact h
      | (split at h <;> simp at h <;> (refine ⟨by omega, h.symm⟩))
      | (simp at h; try exact h.symm)
  | some p =>
    have hg' : ¬ (p ≠ self ∧ (m p).keyid = (m self).keyid) := hg
    cases op <;>
      simp only [operateBalance, bal_touch, keyid_touch, hg', decide_false, Bool.false_eq_true, if_false] at h ⊢ <;>
      first
      | exact h
      | (split at h <;> first | (simp at h; done) | (simp only [Prod.mk.injEq, true_and] at h; exact ⟨by omega, h.symm⟩) | (simp only [Prod.mk.injEq, true_and] at h; exact ⟨p, rfl, by omega, h.symm⟩))
      | (simp at h; done)

theorem U64_pos : 0 < U64 := by decide

end Verif.Account
