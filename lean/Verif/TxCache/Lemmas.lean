import Verif.TxCache.Model

namespace Verif.TxCache

theorem ltN_strictTotal : StrictTotal ltN where
  irrefl a := by simp [ltN]
  trans a b c h1 h2 := by simp [ltN] at *; omega
  total a b h1 h2 := by simp [ltN] at *; omega

theorem find_addTxs (m : TxMap) (ts : List Nat) (q : Nat) :
    find (addTxs m ts) q = if q ∈ ts then some true else find m q := by
  induction ts generalizing m with
  | nil => simp [addTxs]
  | cons t ts ih =>
    rw [addTxs, ih, find_put]
    by_cases h1 : q ∈ ts <;> by_cases h2 : q = t <;> simp [h1, h2]

theorem find_removeTxs (r : Bool) (m : TxMap) (ts : List Nat) (q : Nat) :
    find (removeTxs r m ts) q
      = if q ∈ ts then (if r then none else some false) else find m q := by
  induction ts generalizing m with
  | nil => simp [removeTxs]
  | cons t ts ih =>
    rw [removeTxs, ih]
    cases r
    · simp only [Bool.false_eq_true, if_false, find_put]
      by_cases h1 : q ∈ ts <;> by_cases h2 : q = t <;> simp [h1, h2]
    · simp only [if_true, find_del]
      by_cases h1 : q ∈ ts <;> by_cases h2 : q = t <;> simp [h1, h2]

theorem sorted_addTxs {m : TxMap} (h : SortedBy ltN m) (ts : List Nat) :
    SortedBy ltN (addTxs m ts) := by
  induction ts generalizing m with
  | nil => exact h
  | cons t ts ih => exact ih (sorted_put ltN_strictTotal h _ _)

theorem sorted_removeTxs {m : TxMap} (h : SortedBy ltN m) (r : Bool) (ts : List Nat) :
    SortedBy ltN (removeTxs r m ts) := by
  induction ts generalizing m with
  | nil => exact h
  | cons t ts ih =>
    rw [removeTxs]
    split
    · exact ih (sorted_del h _)
    · exact ih (sorted_put ltN_strictTotal h _ _)

theorem sorted_batchWrite {dst : TxMap} (h : SortedBy ltN dst) (r : Bool) (src : TxMap) :
    SortedBy ltN (batchWrite r dst src) := by
  induction src generalizing dst with
  | nil => exact h
  | cons p src ih =>
    obtain ⟨t, b⟩ := p
    rw [batchWrite]
    split
    · exact ih (sorted_del h _)
    · exact ih (sorted_put ltN_strictTotal h _ _)

theorem find_none_of_sorted_tail {t : Nat} {b : Bool} {src : TxMap}
    (h : SortedBy ltN ((t, b) :: src)) : find src t = none := by
  cases hf : find src t with
  | none => rfl
  | some v =>
    have hm := find_mem hf
    have := (List.pairwise_cons.mp h).1 _ hm
    simp [ltN] at this

theorem find_batchWrite (r : Bool) (dst src : TxMap) (hs : SortedBy ltN src) (q : Nat) :
    find (batchWrite r dst src) q =
      match find src q with
      | none => find dst q
      | some b => if r && !b then none else some b := by
  induction src generalizing dst with
  | nil => simp [batchWrite]
  | cons p src ih =>
    obtain ⟨t, b⟩ := p
    have hn := find_none_of_sorted_tail hs
    rw [batchWrite, ih _ (List.pairwise_cons.mp hs).2]
    by_cases hq : q = t
    · subst hq
      rw [hn]
      cases r <;> cases b <;> simp [find, find_put, find_del]
    · have : find ((t, b) :: src) q = find src q := by simp [find, hq]
      rw [this]
      cases hf : find src q with
      | some v => rfl
      | none =>
        cases r <;> cases b <;> simp [find_put, find_del, hq]

theorem sorted_nil : SortedBy ltN ([] : TxMap) := List.Pairwise.nil

theorem hasTx_root (m : TxMap) (q : Nat) : hasTx [m] q = true ↔ find m q = some true := by
  simp only [hasTx]
  cases hf : find m q with
  | none => simp
  | some b => cases b <;> simp

theorem hasTx_cons_nil (s : Stack) (q : Nat) : hasTx ([] :: s) q = hasTx s q := by
  simp [hasTx]

theorem hasTx_add (m : TxMap) (rest : Stack) (ts : List Nat) (q : Nat) :
    hasTx (addTxs m ts :: rest) q = (decide (q ∈ ts) || hasTx (m :: rest) q) := by
  simp only [hasTx, find_addTxs]
  by_cases h : q ∈ ts <;> simp [h]

theorem hasTx_remove (m : TxMap) (rest : Stack) (ts : List Nat) (q : Nat) :
    hasTx (removeTxs rest.isEmpty m ts :: rest) q = (!decide (q ∈ ts) && hasTx (m :: rest) q) := by
  simp only [hasTx, find_removeTxs]
  by_cases h : q ∈ ts
  · cases rest <;> simp [h, hasTx]
  · simp [h]

theorem hasTx_flush (m b : TxMap) (rest : Stack) (hs : SortedBy ltN m) (q : Nat) :
    hasTx (batchWrite rest.isEmpty b m :: rest) q = hasTx (m :: b :: rest) q := by
  simp only [hasTx, find_batchWrite _ _ _ hs]
  cases hf : find m q with
  | none => rfl
  | some v =>
    cases rest with
    | nil => cases v <;> simp [hasTx]
    | cons c cs => simp

/-! ## Blocks by height -/

variable {T : Type}

/-- `At chain h b`: block `b` is at height `h` of the active chain (tip first). -/
def At : List (List T) → Nat → List T → Prop
  | [], _, _ => False
  | b :: rest, h, x => (h = rest.length ∧ x = b) ∨ At rest h x

theorem At.lt {c : List (List T)} {h : Nat} {b : List T} (a : At c h b) : h < c.length := by
  induction c with
  | nil => exact a.elim
  | cons x xs ih =>
    rcases a with ⟨rfl, _⟩ | a
    · simp
    · have := ih a; simp; omega

theorem At.unique {c : List (List T)} {h : Nat} {b b' : List T} (a : At c h b) (a' : At c h b') : b = b' := by
  induction c with
  | nil => exact a.elim
  | cons x xs ih =>
    rcases a with ⟨h1, rfl⟩ | a <;> rcases a' with ⟨h2, rfl⟩ | a'
    · rfl
    · have := a'.lt; omega
    · have := a.lt; omega
    · exact ih a a'

theorem at_of_getElem {c : List (List T)} {k : Nat} {b : List T} (h : c[k]? = some b) :
    At c (c.length - 1 - k) b := by
  induction c generalizing k with
  | nil => simp at h
  | cons x xs ih =>
    cases k with
    | zero => simp at h; subst h; left; simp
    | succ k =>
      simp at h
      right
      have := ih h
      have e : (x :: xs).length - 1 - (k + 1) = xs.length - 1 - k := by simp; omega
      rw [e]; exact this

theorem getElem_of_at {c : List (List T)} {h : Nat} {b : List T} (a : At c h b) :
    c[c.length - 1 - h]? = some b := by
  induction c with
  | nil => exact a.elim
  | cons x xs ih =>
    rcases a with ⟨rfl, rfl⟩ | a
    · simp
    · have hl := a.lt
      have e : (x :: xs).length - 1 - h = (xs.length - 1 - h) + 1 := by simp; omega
      rw [e]; simpa using ih a

theorem at_of_mem_dropLast {c : List (List T)} {b : List T} (h : b ∈ c.dropLast) :
    ∃ k, 1 ≤ k ∧ At c k b := by
  induction c with
  | nil => simp at h
  | cons x xs ih =>
    cases xs with
    | nil => simp at h
    | cons y ys =>
      rw [List.dropLast_cons_cons] at h
      rcases List.mem_cons.1 h with rfl | h
      · exact ⟨(y :: ys).length, by simp, Or.inl ⟨rfl, rfl⟩⟩
      · obtain ⟨k, hk, ha⟩ := ih h
        exact ⟨k, hk, Or.inr ha⟩

theorem find_loadBlocks (I : TxInfo T) (m : TxMap) (bs : List (List T)) (q : Nat) :
    find (loadBlocks I m bs) q = if ∃ b ∈ bs, q ∈ b.map I.hash then some true else find m q := by
  induction bs generalizing m with
  | nil => simp [loadBlocks]
  | cons b bs ih =>
    rw [loadBlocks, ih, find_addTxs]
    by_cases h1 : ∃ b ∈ bs, q ∈ b.map I.hash
    · have : ∃ b' ∈ b :: bs, q ∈ b'.map I.hash := by
        obtain ⟨x, hx, hq⟩ := h1; exact ⟨x, List.mem_cons_of_mem _ hx, hq⟩
      rw [if_pos h1, if_pos this]
    · rw [if_neg h1]
      by_cases h2 : q ∈ b.map I.hash
      · rw [if_pos h2, if_pos ⟨b, by simp, h2⟩]
      · rw [if_neg h2, if_neg]
        rintro ⟨x, hx, hq⟩
        rcases List.mem_cons.1 hx with rfl | hx
        · exact h2 hq
        · exact h1 ⟨x, hx, hq⟩

/-! ## The node invariant -/

/-- Facts about the active chain. -/
structure ChainInv (I : TxInfo T) (cacheH : Nat) (c : List (List T)) : Prop where
  tail_kind : ∀ h b, 1 ≤ h → At c h b → ∀ t ∈ b, I.kind t ≠ .reward → t ∈ b.tail
  nodup : ∀ h b, 1 ≤ h → At c h b → (b.map I.hash).Nodup
  valid : ∀ h b, 1 ≤ h → At c h b → ∀ t ∈ b, I.kind t = .ordinary →
    I.validHeight t ≤ (h : Int) - 1 + (cacheH : Int) / 2 ∧ I.validHeight t ≥ (h : Int) - 1 - (cacheH : Int) / 2
  apart : ∀ h1 h2 b1 b2 t, 1 ≤ h1 → h1 < h2 → At c h1 b1 → At c h2 b2 → t ∈ b1 → t ∈ b2 →
    I.kind t ≠ .reward → cacheH < h2 - h1

/-- The cache holds every non-reward transaction of the last `cacheH` blocks. -/
def Window (I : TxInfo T) (cacheH : Nat) (n : Node T) : Prop :=
  ∀ h b, 1 ≤ h → n.chain.length ≤ h + cacheH → At n.chain h b → ∀ t ∈ b, I.kind t ≠ .reward →
    find n.cache (I.hash t) = some true

/-- The cache holds only transactions of the active chain. -/
def Only (I : TxInfo T) (n : Node T) : Prop :=
  ∀ x, find n.cache x = some true → ∃ h b t, At n.chain h b ∧ t ∈ b ∧ I.hash t = x

open Classical in
theorem connect_cases {I : TxInfo T} {cacheH : Nat} {mr ok : Bool} {n n' : Node T} {b : List T}
    (h : connect I cacheH mr ok n b = some n') :
    (n.chain = [] ∧ n' = { n with chain := [b] }) ∨
    (n.chain ≠ [] ∧ checkBlock I mr b = true
      ∧ txsAllowed I cacheH [[], n.cache] (tipHeight n.chain) b.tail = true
      ∧ n'.chain = b :: n.chain
      ∧ ∀ q, find n'.cache q =
          if ∃ old, cacheH < n.chain.length ∧ (b :: n.chain)[cacheH]? = some old ∧ q ∈ old.map I.hash then none
          else if q ∈ b.map I.hash then some true else find n.cache q) := by
  unfold connect at h
  cases hc : n.chain with
  | nil => rw [hc] at h; left; simp at h; exact ⟨rfl, h.symm⟩
  | cons x xs =>
    right
    rw [hc] at h
    simp only at h
    split at h
    · cases h
    split at h
    · cases h
    split at h
    · cases h
    rename_i h1 h2 _
    simp only [Option.some.injEq] at h
    subst h
    refine ⟨by simp, by simpa using h1, by simpa using h2, rfl, ?_⟩
    intro q
    simp only
    by_cases hl : (x :: xs).length > cacheH
    · rw [if_pos hl]
      cases hg : (b :: x :: xs)[cacheH]? with
      | none =>
        simp only [hg]
        rw [find_batchWrite _ _ _ (sorted_addTxs sorted_nil _), find_addTxs]
        simp only [reduceCtorEq, false_and, and_false, exists_false, if_false]
        by_cases hq : q ∈ b.map I.hash
        · rw [if_pos hq, if_pos hq]; rfl
        · rw [if_neg hq, if_neg hq]; rfl
      | some old =>
        simp only [hg]
        rw [find_batchWrite _ _ _ (sorted_removeTxs (sorted_addTxs sorted_nil _) _ _), find_removeTxs, find_addTxs]
        by_cases ho : q ∈ old.map I.hash
        · have hE : ∃ o, cacheH < (x :: xs).length ∧ some old = some o ∧ q ∈ o.map I.hash := ⟨old, hl, rfl, ho⟩
          rw [if_pos ho, if_pos hE]; rfl
        · have hE : ¬ ∃ o, cacheH < (x :: xs).length ∧ some old = some o ∧ q ∈ o.map I.hash := by
            rintro ⟨o, _, e, hq⟩; cases e; exact ho hq
          rw [if_neg ho, if_neg hE]
          by_cases hq : q ∈ b.map I.hash
          · rw [if_pos hq, if_pos hq]; rfl
          · rw [if_neg hq, if_neg hq]; rfl
    · rw [if_neg hl, if_neg (by rintro ⟨o, h, _⟩; exact hl h),
        find_batchWrite _ _ _ (sorted_addTxs sorted_nil _), find_addTxs]
      by_cases hq : q ∈ b.map I.hash
      · rw [if_pos hq, if_pos hq]; rfl
      · rw [if_neg hq, if_neg hq]; rfl

open Classical in
theorem disconnect_cases {I : TxInfo T} {cacheH : Nat} {n n' : Node T}
    (h : disconnect I cacheH n = some n') :
    ∃ b rest, rest ≠ [] ∧ n.chain = b :: rest ∧ n'.chain = rest ∧
      ∀ q, find n'.cache q =
        if ∃ old, cacheH < rest.length ∧ (b :: rest)[cacheH]? = some old ∧ q ∈ old.map I.hash then some true
        else if q ∈ b.map I.hash then none else find n.cache q := by
  unfold disconnect at h
  match hc : n.chain with
  | [] => rw [hc] at h; cases h
  | [_] => rw [hc] at h; cases h
  | b :: x :: xs =>
    rw [hc] at h
    simp only [Option.some.injEq] at h
    subst h
    refine ⟨b, x :: xs, by simp, rfl, rfl, ?_⟩
    intro q
    simp only
    by_cases hl : (x :: xs).length > cacheH
    · rw [if_pos hl]
      cases hg : (b :: x :: xs)[cacheH]? with
      | none =>
        simp only [hg]
        rw [find_batchWrite _ _ _ (sorted_removeTxs sorted_nil _ _), find_removeTxs]
        simp only [reduceCtorEq, false_and, and_false, exists_false, if_false]
        by_cases hq : q ∈ b.map I.hash
        · rw [if_pos hq, if_pos hq]; rfl
        · rw [if_neg hq, if_neg hq]; rfl
      | some old =>
        simp only [hg]
        rw [find_batchWrite _ _ _ (sorted_addTxs (sorted_removeTxs sorted_nil _ _) _), find_addTxs, find_removeTxs]
        by_cases ho : q ∈ old.map I.hash
        · have hE : ∃ o, cacheH < (x :: xs).length ∧ some old = some o ∧ q ∈ o.map I.hash := ⟨old, hl, rfl, ho⟩
          rw [if_pos ho, if_pos hE]; rfl
        · have hE : ¬ ∃ o, cacheH < (x :: xs).length ∧ some old = some o ∧ q ∈ o.map I.hash := by
            rintro ⟨o, _, e, hq⟩; cases e; exact ho hq
          rw [if_neg ho, if_neg hE]
          by_cases hq : q ∈ b.map I.hash
          · rw [if_pos hq, if_pos hq]; rfl
          · rw [if_neg hq, if_neg hq]; rfl
    · rw [if_neg hl, if_neg (by rintro ⟨o, h, _⟩; exact hl h),
        find_batchWrite _ _ _ (sorted_removeTxs sorted_nil _ _), find_removeTxs]
      by_cases hq : q ∈ b.map I.hash
      · rw [if_pos hq, if_pos hq]; rfl
      · rw [if_neg hq, if_neg hq]; rfl

theorem checkBlock_facts {I : TxInfo T} {mr : Bool} {b : List T} (h : checkBlock I mr b = true) :
    (b.map I.hash).Nodup ∧ ∀ t ∈ b, I.kind t ≠ .reward → t ∈ b.tail := by
  cases b with
  | nil => simp [checkBlock] at h
  | cons r txs =>
    simp only [checkBlock, Bool.and_eq_true, decide_eq_true_eq] at h
    obtain ⟨⟨⟨h1, _⟩, _⟩, h4⟩ := h
    refine ⟨h4, ?_⟩
    intro t ht hk
    rcases List.mem_cons.1 ht with rfl | ht
    · exact absurd h1 hk
    · exact ht

theorem allowed_facts {I : TxInfo T} {cacheH : Nat} {m : TxMap} {cur : Int} {txs : List T}
    (h : txsAllowed I cacheH [[], m] cur txs = true) {t : T} (ht : t ∈ txs) :
    find m (I.hash t) ≠ some true ∧ isValidHeight I t cur cacheH = true := by
  have := List.all_eq_true.1 h t ht
  simp only [Bool.and_eq_true, Bool.not_eq_true'] at this
  refine ⟨?_, this.2⟩
  intro hf
  have h2 := this.1
  rw [hasTx_cons_nil] at h2
  rw [(hasTx_root m _).2 hf] at h2
  cases h2

theorem chainInv_nil (I : TxInfo T) (cacheH : Nat) : ChainInv I cacheH ([] : List (List T)) :=
  ⟨fun _ _ _ a => a.elim, fun _ _ _ a => a.elim, fun _ _ _ a => a.elim, fun _ _ _ _ _ _ _ a => a.elim⟩

theorem chainInv_tail {I : TxInfo T} {cacheH : Nat} {b : List T} {c : List (List T)}
    (h : ChainInv I cacheH (b :: c)) : ChainInv I cacheH c :=
  ⟨fun k x hk a => h.tail_kind k x hk (Or.inr a), fun k x hk a => h.nodup k x hk (Or.inr a),
   fun k x hk a => h.valid k x hk (Or.inr a),
   fun h1 h2 b1 b2 t l1 l2 a1 a2 => h.apart h1 h2 b1 b2 t l1 l2 (Or.inr a1) (Or.inr a2)⟩

theorem chainInv_connect {I : TxInfo T} {cacheH : Nat} {mr ok : Bool} {n n' : Node T} {b : List T}
    (hi : ChainInv I cacheH n.chain) (hw : Window I cacheH n)
    (h : connect I cacheH mr ok n b = some n') : ChainInv I cacheH n'.chain := by
  rcases connect_cases h with ⟨he, rfl⟩ | ⟨hne, hc, ha, hch, _⟩
  · have key : ∀ k x, 1 ≤ k → ¬ At [b] k x := by
      intro k x hk a; have := a.lt; simp at this; omega
    exact ⟨fun k x hk a => (key k x hk a).elim, fun k x hk a => (key k x hk a).elim,
      fun k x hk a => (key k x hk a).elim, fun k _ x _ _ hk _ a => (key k x hk a).elim⟩
  · have ⟨hnd, htl⟩ := checkBlock_facts hc
    rw [hch]
    refine ⟨?_, ?_, ?_, ?_⟩
    · intro k x hk a
      rcases a with ⟨_, rfl⟩ | a
      · exact htl
      · exact hi.tail_kind k x hk a
    · intro k x hk a
      rcases a with ⟨_, rfl⟩ | a
      · exact hnd
      · exact hi.nodup k x hk a
    · intro k x hk a t ht ho
      rcases a with ⟨e, rfl⟩ | a
      · have hv := (allowed_facts ha (htl t ht (by rw [ho]; decide))).2
        simp only [isValidHeight, ho, reduceCtorEq, or_self, if_false, Bool.and_eq_true,
          decide_eq_true_eq] at hv
        have : ((tipHeight n.chain : Nat) : Int) = (k : Int) - 1 := by unfold tipHeight; omega
        omega
      · exact hi.valid k x hk a t ht ho
    · intro h1 h2 b1 b2 t l1 l2 a1 a2 t1 t2 hk
      rcases a1 with ⟨e1, rfl⟩ | a1
      · rcases a2 with ⟨e2, _⟩ | a2
        · omega
        · have := a2.lt; omega
      · rcases a2 with ⟨e2, rfl⟩ | a2
        · have hn := (allowed_facts ha (htl t t2 hk)).1
          by_cases hlt : cacheH < h2 - h1
          · exact hlt
          · exact absurd (hw h1 b1 l1 (by omega) a1 t t1 hk) hn
        · exact hi.apart h1 h2 b1 b2 t l1 l2 a1 a2 t1 t2 hk

theorem window_connect {I : TxInfo T} (hinj : Function.Injective I.hash) {cacheH : Nat} {mr ok : Bool}
    {n n' : Node T} {b : List T}
    (hi : ChainInv I cacheH n.chain) (hw : Window I cacheH n)
    (h : connect I cacheH mr ok n b = some n') : Window I cacheH n' := by
  have hi' := chainInv_connect hi hw h
  rcases connect_cases h with ⟨he, rfl⟩ | ⟨hne, hc, ha, hch, hf⟩
  · intro k x hk _ a
    have := a.lt; simp at this; omega
  · intro k x hk hlen a t ht hr
    rw [hf]
    rw [hch] at hlen a hi'
    simp only [List.length_cons] at hlen
    rw [if_neg, ]
    · rcases a with ⟨_, rfl⟩ | a
      · rw [if_pos (List.mem_map_of_mem ht)]
      · split
        · rfl
        · exact hw k x hk (by omega) a t ht hr
    · rintro ⟨old, hl, hg, hm⟩
      have hao := at_of_getElem hg
      obtain ⟨t', ht', e⟩ := List.mem_map.1 hm
      have e := hinj e
      subst e
      simp only [List.length_cons] at hao
      have := hi'.apart (n.chain.length + 1 - 1 - cacheH) k old x t' (by omega) (by omega) hao a ht' ht hr
      have := a.lt
      simp at this
      omega

theorem only_connect {I : TxInfo T} {cacheH : Nat} {mr ok : Bool} {n n' : Node T} {b : List T}
    (ho : Only I n) (h : connect I cacheH mr ok n b = some n') : Only I n' := by
  rcases connect_cases h with ⟨he, rfl⟩ | ⟨hne, hc, ha, hch, hf⟩
  · intro x hx
    obtain ⟨k, y, t, a, _⟩ := ho x hx
    rw [he] at a; exact a.elim
  · intro x hx
    rw [hf] at hx
    rw [hch]
    split at hx
    · cases hx
    · split at hx
      · rename_i hm
        obtain ⟨t, ht, e⟩ := List.mem_map.1 hm
        exact ⟨n.chain.length, b, t, Or.inl ⟨rfl, rfl⟩, ht, e⟩
      · obtain ⟨k, y, t, a, r⟩ := ho x hx
        exact ⟨k, y, t, Or.inr a, r⟩

theorem window_disconnect {I : TxInfo T} (hinj : Function.Injective I.hash) {cacheH : Nat} {n n' : Node T}
    (hi : ChainInv I cacheH n.chain) (hw : Window I cacheH n)
    (h : disconnect I cacheH n = some n') : Window I cacheH n' := by
  obtain ⟨b, rest, hr, hc, hc', hf⟩ := disconnect_cases h
  intro k x hk hlen a t ht hkind
  rw [hf]
  rw [hc'] at a hlen
  split
  · rfl
  · rename_i hno
    have hka := a.lt
    have hk1 : rest.length + 1 ≤ k + cacheH := by
      rcases Nat.lt_or_ge (k + cacheH) (rest.length + 1) with hh | hh
      · exfalso
        apply hno
        refine ⟨x, by omega, ?_, List.mem_map_of_mem ht⟩
        have a' : At (b :: rest) k x := Or.inr a
        have := getElem_of_at a'
        have e : (b :: rest).length - 1 - k = cacheH := by simp; omega
        rwa [e] at this
      · exact hh
    rw [if_neg]
    · exact hw k x hk (by rw [hc]; simpa using hk1) (by rw [hc]; exact Or.inr a) t ht hkind
    · intro hm
      obtain ⟨t', ht', e⟩ := List.mem_map.1 hm
      have e := hinj e
      subst e
      rw [hc] at hi
      have := hi.apart k rest.length x b t' hk hka (Or.inr a) (Or.inl ⟨rfl, rfl⟩) ht ht' hkind
      omega

theorem only_disconnect {I : TxInfo T} {cacheH : Nat} (hpos : 1 ≤ cacheH) {n n' : Node T}
    (ho : Only I n) (h : disconnect I cacheH n = some n') : Only I n' := by
  obtain ⟨b, rest, hr, hc, hc', hf⟩ := disconnect_cases h
  intro x hx
  rw [hf] at hx
  rw [hc']
  split at hx
  · rename_i hex
    obtain ⟨old, hl, hg, hm⟩ := hex
    obtain ⟨t, ht, e⟩ := List.mem_map.1 hm
    obtain ⟨c, rfl⟩ : ∃ c, cacheH = c + 1 := ⟨cacheH - 1, by omega⟩
    have hg : rest[c]? = some old := by simpa using hg
    exact ⟨_, old, t, at_of_getElem hg, ht, e⟩
  · split at hx
    · cases hx
    · rename_i hnb
      obtain ⟨k, y, t, a, ht, e⟩ := ho x hx
      rw [hc] at a
      rcases a with ⟨_, rfl⟩ | a
      · exact absurd (e ▸ List.mem_map_of_mem ht) hnb
      · exact ⟨k, y, t, a, ht, e⟩

theorem at_mem_take {c : List (List T)} {k : Nat} {b : List T} (a : At c k b) {m : Nat}
    (h : c.length ≤ k + m) : b ∈ c.take m := by
  have hg := getElem_of_at a
  have hl := a.lt
  have : (c.take m)[c.length - 1 - k]? = some b := by
    rw [List.getElem?_take, if_pos (by omega)]; exact hg
  exact List.mem_of_getElem? this

theorem at_of_mem {c : List (List T)} {b : List T} (h : b ∈ c) : ∃ k, At c k b := by
  obtain ⟨i, hi⟩ := List.getElem?_of_mem h
  exact ⟨_, at_of_getElem hi⟩

theorem window_load (I : TxInfo T) (cacheH : Nat) (n : Node T) : Window I cacheH (loadCache I cacheH n) := by
  intro k x hk hlen a t ht _
  simp only [loadCache] at hlen a ⊢
  rw [find_loadBlocks, if_pos ⟨x, at_mem_take a hlen, List.mem_map_of_mem ht⟩]

theorem window_reload (I : TxInfo T) (cacheH : Nat) (n : Node T) : Window I cacheH (reloadCache I cacheH n) := by
  intro k x hk hlen a t ht _
  simp only [reloadCache] at hlen a ⊢
  rw [find_loadBlocks, if_pos ⟨x, List.mem_reverse.2 (at_mem_take a (by omega)), List.mem_map_of_mem ht⟩]

theorem only_load {I : TxInfo T} {cacheH : Nat} {n : Node T} (ho : Only I n) : Only I (loadCache I cacheH n) := by
  intro x hx
  simp only [loadCache] at hx ⊢
  rw [find_loadBlocks] at hx
  split at hx
  · rename_i hex
    obtain ⟨b, hb, hm⟩ := hex
    obtain ⟨k, a⟩ := at_of_mem (List.mem_of_mem_take hb)
    obtain ⟨t, ht, e⟩ := List.mem_map.1 hm
    exact ⟨k, b, t, a, ht, e⟩
  · exact ho x hx

theorem only_reload {I : TxInfo T} {cacheH : Nat} {n : Node T} : Only I (reloadCache I cacheH n) := by
  intro x hx
  simp only [reloadCache] at hx ⊢
  rw [find_loadBlocks] at hx
  split at hx
  · rename_i hex
    obtain ⟨b, hb, hm⟩ := hex
    obtain ⟨k, a⟩ := at_of_mem (List.mem_of_mem_take (List.mem_reverse.1 hb))
    obtain ⟨t, ht, e⟩ := List.mem_map.1 hm
    exact ⟨k, b, t, a, ht, e⟩
  · simp at hx

theorem only_start {I : TxInfo T} {n : Node T} : Only I (startProcess n) := by
  intro x hx; simp [startProcess] at hx

/-- Events after which the cache window is intact (everything but a bare `start`). -/
def Ev.covered : Ev T → Prop
  | .start => False
  | _ => True

theorem inv_step {I : TxInfo T} (hinj : Function.Injective I.hash) {cacheH : Nat} {n : Node T} {e : Ev T}
    (he : e.covered) (hi : ChainInv I cacheH n.chain) (hw : Window I cacheH n) :
    ChainInv I cacheH (evStep I cacheH n e).chain ∧ Window I cacheH (evStep I cacheH n e) := by
  cases e with
  | connect mr ok b =>
    simp only [evStep]
    cases h : connect I cacheH mr ok n b with
    | none => exact ⟨hi, hw⟩
    | some n' => exact ⟨chainInv_connect hi hw h, window_connect hinj hi hw h⟩
  | disconnect =>
    simp only [evStep]
    cases h : disconnect I cacheH n with
    | none => exact ⟨hi, hw⟩
    | some n' =>
      refine ⟨?_, window_disconnect hinj hi hw h⟩
      obtain ⟨b, rest, _, hc, hc', _⟩ := disconnect_cases h
      rw [hc] at hi
      simp only [Option.getD_some, hc']
      exact chainInv_tail hi
  | restart => exact ⟨hi, window_load I cacheH _⟩
  | reload => exact ⟨hi, window_reload I cacheH _⟩
  | start => exact he.elim
  | load => exact ⟨hi, window_load I cacheH _⟩

theorem inv_run {I : TxInfo T} (hinj : Function.Injective I.hash) {cacheH : Nat} {es : List (Ev T)}
    (hes : ∀ e ∈ es, e.covered) {n : Node T} (hi : ChainInv I cacheH n.chain) (hw : Window I cacheH n) :
    ChainInv I cacheH (evRun I cacheH n es).chain ∧ Window I cacheH (evRun I cacheH n es) := by
  induction es generalizing n with
  | nil => exact ⟨hi, hw⟩
  | cons e es ih =>
    have ⟨a, b⟩ := inv_step hinj (hes e (by simp)) hi hw
    exact ih (fun x hx => hes x (List.mem_cons_of_mem _ hx)) a b

theorem only_run {I : TxInfo T} {cacheH : Nat} (hpos : 1 ≤ cacheH) {es : List (Ev T)} {n : Node T}
    (ho : Only I n) : Only I (evRun I cacheH n es) := by
  induction es generalizing n with
  | nil => exact ho
  | cons e es ih =>
    apply ih
    cases e with
    | connect mr ok b =>
      simp only [evStep]
      cases h : connect I cacheH mr ok n b with
      | none => exact ho
      | some n' => exact only_connect ho h
    | disconnect =>
      simp only [evStep]
      cases h : disconnect I cacheH n with
      | none => exact ho
      | some n' => exact only_disconnect hpos ho h
    | restart => exact only_load only_start
    | reload => exact only_reload
    | start => exact only_start
    | load => exact only_load ho

theorem window_fresh (I : TxInfo T) (cacheH : Nat) : Window I cacheH (freshNode T) :=
  fun _ _ _ _ a => a.elim

theorem only_fresh (I : TxInfo T) : Only I (freshNode T) := by
  intro x hx; simp [freshNode] at hx

/-- Two confirmations of an ordinary transaction are at the same height. -/
theorem ordinary_once {I : TxInfo T} {cacheH : Nat} {c : List (List T)} (hi : ChainInv I cacheH c)
    {h1 h2 : Nat} {b1 b2 : List T} {t : T} (l1 : 1 ≤ h1) (l2 : h1 < h2) (a1 : At c h1 b1) (a2 : At c h2 b2)
    (t1 : t ∈ b1) (t2 : t ∈ b2) (ho : I.kind t = .ordinary) : False := by
  have ha := hi.apart h1 h2 b1 b2 t l1 l2 a1 a2 t1 t2 (by rw [ho]; decide)
  have v1 := hi.valid h1 b1 l1 a1 t t1 ho
  have v2 := hi.valid h2 b2 (by omega) a2 t t2 ho
  omega

theorem ordinary_ids_nodup {I : TxInfo T} (hinj : Function.Injective I.hash) {cacheH : Nat}
    {c : List (List T)} (hi : ChainInv I cacheH c) :
    ((c.dropLast.flatten.filter (fun t => decide (I.kind t = .ordinary))).map I.hash).Nodup := by
  induction c with
  | nil => simp
  | cons b rest ih =>
    cases rest with
    | nil => simp
    | cons y ys =>
      have ih := ih (chainInv_tail hi)
      rw [List.dropLast_cons_cons, List.flatten_cons, List.filter_append, List.map_append, List.nodup_append]
      refine ⟨?_, ih, ?_⟩
      · have := hi.nodup (y :: ys).length b (by simp) (Or.inl ⟨rfl, rfl⟩)
        exact this.sublist (List.Sublist.map _ List.filter_sublist)
      · intro x hx z hz e
        subst e
        obtain ⟨t, ht, e1⟩ := List.mem_map.1 hx
        obtain ⟨t', ht', e2⟩ := List.mem_map.1 hz
        have e3 := hinj (e2.trans e1.symm)
        subst e3
        have hm := (List.mem_filter.1 ht).1
        have ho : I.kind t' = .ordinary := by simpa using (List.mem_filter.1 ht).2
        obtain ⟨b2, hb2, hm2⟩ := List.mem_flatten.1 (List.mem_filter.1 ht').1
        obtain ⟨k, hk, a⟩ := at_of_mem_dropLast hb2
        exact ordinary_once hi hk a.lt (Or.inr a) (Or.inl ⟨rfl, rfl⟩) hm2 hm ho

end Verif.TxCache
