import Mathlib.Data.List.Induction
import Verif.Mine.Lemmas

/-! # Properties of the pool and of the making of blocks (C109-C112) -/
namespace Verif.Mine.Props
open Verif.Mine Spec

/-! ## Samples -/

/-- A transaction over a counter that adds one and uses no fuel. -/
def plain (id : Nat) (h : Int) : Tx Nat :=
  { id := id, kind := .other, validHeight := h, size := 100, fee := 10, wusd := false, check := fun _ _ => true
    exec := fun _ v => some (v + 1, 0) }

/-- A transaction that needs the counter to be at least one. -/
def child (id : Nat) (h : Int) : Tx Nat :=
  { plain id h with exec := fun _ v => if 1 ≤ v then some (v + 1, 0) else none }

def medianTx : Tx Nat :=
  { id := 5000, kind := .median, validHeight := 0, size := 50, fee := 0, wusd := false, check := fun _ _ => true
    exec := fun _ v => some (v, 0) }

def settleTx (h : Int) : Tx Nat :=
  { id := 7000, kind := .settle, validHeight := h, size := 60, fee := 0, wusd := false, check := fun _ _ => true
    exec := fun _ v => some (v, 0) }

def env : Env := { rate := 1, time := 20, prev := 10, bp := 3 }
def cfg : Cfg Nat := { maxSize := 3750000, size0 := 300, fuelFee := fun f r => f * r, median := fun _ _ => medianTx }
def start : Node Nat := ⟨1000, 0, fun _ => false, [], 0⟩

theorem reach_plain (id : Nat) (h : Int) (h1 : 751 ≤ h) (h2 : h ≤ 1251) :
    Reach env ⟨1000, 0, fun _ => false, [plain id h], 1⟩ := by
  refine Reach.accept env start _ (plain id h) (Reach.start _ _ _ _) ?_
  have hv : validAt (plain id h) (((1000 : Nat) : Int) + 1) = true := by
    rw [show validAt (plain id h) (((1000 : Nat) : Int) + 1) =
      (decide (h ≤ ((1000 : Nat) : Int) + 1 + half) && decide (h ≥ ((1000 : Nat) : Int) + 1 - half)) from rfl]
    unfold half
    rw [Bool.and_eq_true, decide_eq_true_eq, decide_eq_true_eq]
    omega
  have hi : inPool env start (plain id h) 0 = some 1 := by
    unfold inPool
    rw [show start.tip = 1000 from rfl, hv]
    rfl
  unfold accept
  rw [show start.pool.length = 0 from rfl, hi]
  rfl

/-! ## C109: a block made by a producer is accepted -/

theorem order_cands {V : Type} {g : Tx V → Nat} {n : Node V} {mid : Nat} {settle : Option (Tx V)} {order : List (Cand V)}
    (hn : Clean n) (hs : ∀ t, settle = some t → ∀ x ∈ n.pool, x.id ≠ t.id) (ho : Order g n mid settle order) :
    order.Perm ((items g n mid settle).map (·.cand)) := by
  obtain ⟨t, hb, rfl⟩ := ho
  exact ((List.reverse_perm _).trans (built_sorted hb (fits_items g mid hn hs)).2).map _

theorem items_cands {V : Type} (g : Tx V → Nat) (n : Node V) (mid : Nat) (settle : Option (Tx V)) :
    (items g n mid settle).map (·.cand) =
      (n.pool.filter fun t => t.kind != .reward && !n.conf t.id).map Cand.tx ++ (Cand.median :: settle.toList.map Cand.tx) := by
  unfold items
  cases settle <;> simp [itemOf, Function.comp_def]

/-- The candidates are the pool, the median and the settlement. -/
theorem mem_cands {V : Type} {g : Tx V → Nat} {n : Node V} {mid : Nat} {settle : Option (Tx V)} {c : Cand V}
    (h : c ∈ (items g n mid settle).map (·.cand)) : c = .median ∨ ∃ t, c = .tx t ∧ (t ∈ n.pool ∨ settle = some t) := by
  rw [items_cands] at h
  rcases List.mem_append.1 h with h | h
  · obtain ⟨t, ht, rfl⟩ := List.mem_map.1 h
    exact Or.inr ⟨t, rfl, Or.inl (List.mem_filter.1 ht).1⟩
  · rcases List.mem_cons.1 h with h | h
    · exact Or.inl h
    · obtain ⟨t, ht, rfl⟩ := List.mem_map.1 h
      exact Or.inr ⟨t, rfl, Or.inr (by simpa using ht)⟩

theorem apart_symm {V : Type} {cfg : Cfg V} : Std.Symm (Apart cfg) := ⟨fun _ _ h x v y w => (h y w x v).symm⟩

theorem cands_apart {V : Type} {cfg : Cfg V} {g : Tx V → Nat} {n : Node V} {mid r : Nat} {settle : Option (Tx V)}
    (hn : Clean n) (ho : Own cfg n settle r) : ((items g n mid settle).map (·.cand)).Pairwise (Apart cfg) := by
  rw [items_cands, List.pairwise_append, List.pairwise_cons]
  refine ⟨?_, ⟨?_, ?_⟩, ?_⟩
  · rw [List.pairwise_map]
    refine (hn.1.filter _).imp ?_
    intro a b hab x v y w
    simp only [Cand.get]
    omega
  · intro c hc x v y w
    obtain ⟨t, ht, rfl⟩ := List.mem_map.1 hc
    exact (ho.settle t (by simpa using ht)).2.2.2.2.2 x v
  · cases settle <;> simp
  · intro c hc c' hc' x v y w
    obtain ⟨t, ht, rfl⟩ := List.mem_map.1 hc
    have ht := (List.mem_filter.1 ht).1
    rcases List.mem_cons.1 hc' with rfl | hc'
    · exact (ho.median y w).2.2.2 t ht
    · obtain ⟨s, hs, rfl⟩ := List.mem_map.1 hc'
      exact (ho.settle s (by simpa using hs)).2.2.2.2.1 t ht

/-- A block made on a node that arose in any way is accepted, by this node and by any other with the same tip, if no transaction of the
pool is at the far edge of the height window, the fuel fees fit in 32 bits and the configured size leaves room for the type bytes. -/
theorem own_block_partial {V : Type} (cfg : Cfg V) (e : Env) (n : Node V) (g : Tx V → Nat) (mid cut rewardId rest : Nat)
    (settle : Option (Tx V)) (order : List (Cand V)) (b : Block V) (hr : Reach e n) (ho : Order g n mid settle order)
    (hown : Own cfg n settle rewardId) (hb : assemble cfg e n order cut rewardId = some b)
    (hmed : ∃ t ∈ b.txs, t.kind = .median) (hedge : ∀ t ∈ n.pool, t.validHeight ≠ (n.tip : Int) + 1 + 250)
    (hfuel : b.fuelFee < 2 ^ 32) (hsize : rest + b.txs.length + cfg.maxSize ≤ MAXSIZE + cfg.size0)
    (m : Node V) (hm : m.tip = n.tip ∧ m.base = n.base ∧ m.conf = n.conf) :
    ∃ v, checkWork cfg m e.prev rest b = .ok v := by
  obtain ⟨hcl, _⟩ := reach_ok hr
  have hperm := order_cands hcl (fun t ht => (hown.settle t ht).2.2.2.2.1) ho
  unfold assemble at hb
  cases hp : packAll cfg e n.tip (order.take cut)
      { view := n.base, size := cfg.size0, fuel := 0, fuelFee := 0, wicc := 0, wusd := 0, txs := [] } with
  | none => rw [hp] at hb; cases hb
  | some p =>
    rw [hp] at hb
    have hb := (Option.some.inj hb).symm
    have htxs : b.txs = p.txs := by rw [hb]
    have hff : b.fuelFee = p.fuelFee := by rw [hb]
    have hwi : b.wicc = p.wicc := by rw [hb]
    have hwu : b.wusd = p.wusd := by rw [hb]
    have hri : b.rewardId = rewardId := by rw [hb]
    have hsame : Same e m b := by rw [hb]; exact ⟨by rw [hm.1], rfl, rfl, rfl⟩
    have hin : ∀ c ∈ order.take cut, c = .median ∨ ∃ t, c = .tx t ∧ (t ∈ n.pool ∨ settle = some t) := fun c hc =>
      mem_cands (hperm.mem_iff.1 (List.mem_of_mem_take hc))
    have hok : ∀ c ∈ order.take cut, ∀ x v, m.conf (c.get cfg x v).id = false ∧ validAt (c.get cfg x v) (m.tip : Int) = true := by
      intro c hc x v
      rw [hm.1, hm.2.2]
      rcases hin c hc with rfl | ⟨t, rfl, ht | ht⟩
      · obtain ⟨h1, h2, _⟩ := hown.median x v
        refine ⟨h2, ?_⟩
        show validAt (cfg.median x v) _ = true
        unfold validAt
        rw [h1]
      · obtain ⟨hk, hc, h1, h2⟩ := hcl.2 t ht
        refine ⟨hc, ?_⟩
        have := hedge t ht
        show validAt t _ = true
        unfold validAt half
        rcases hk with hk | hk <;> rw [hk] <;> simp <;> omega
      · obtain ⟨hk, hc, _, hv, _⟩ := hown.settle t ht
        refine ⟨hc, ?_⟩
        show validAt t _ = true
        unfold validAt half
        rw [hk, hv]
        simp
        omega
    have hkind : ∀ t, Cand.tx t ∈ order.take cut → t.kind ≠ .median ∧ t.kind ≠ .reward ∧ t.id ≠ rewardId := by
      intro t ht
      rcases hin _ ht with h | ⟨s, h, hs | hs⟩
      · cases h
      · cases h
        rcases (hcl.2 t hs).1 with hk | hk <;> rw [hk] <;> exact ⟨by simp, by simp, hown.reward t hs⟩
      · cases h
        obtain ⟨hk, _, h, _⟩ := hown.settle t hs
        rw [hk]; exact ⟨by simp, by simp, h⟩
    rw [← hm.1] at hp
    obtain ⟨ts, h1, h2, h3, h4⟩ := packAll_conn hsame _ _ _ hp hok
    have hts : ts = b.txs := by rw [htxs, h1]; simp
    have hmem := packAll_mem _ _ _ hp
    have hnd := packAll_nodup _ _ _ hp
      ((hperm.pairwise_iff (fun {x y} h => apart_symm.symm x y h)).2 (cands_apart hcl hown) |>.sublist (List.take_sublist _ _)) (by simp) (by simp)
    have hmc := packAll_median _ _ _ hp fun t ht => (hkind t ht).1
    have hone : ((order.take cut).filter Cand.isMedian).length ≤ 1 := by
      have h5 := ((List.take_sublist cut order).filter Cand.isMedian).length_le
      have h6 := (hperm.filter Cand.isMedian).length_eq
      have h7 : (((items g n mid settle).map (·.cand)).filter Cand.isMedian).length = 1 := by
        rw [items_cands, List.filter_append, List.filter_cons]
        have : ∀ l : List (Tx V), (l.map Cand.tx).filter Cand.isMedian = [] := by
          intro l
          rw [List.filter_eq_nil_iff]
          intro c hc
          obtain ⟨t, _, rfl⟩ := List.mem_map.1 hc
          simp [Cand.isMedian]
        rw [this, this]
        simp [Cand.isMedian]
      omega
    obtain ⟨tm, htm, htk⟩ := hmed
    have hne : ts ≠ [] := by
      rw [hts]; intro h; rw [h] at htm; cases htm
    have hsz := h3 hne
    have hsum : ∀ l : List (Tx V), (l.map fun t => t.size + 1).sum = (l.map (·.size)).sum + l.length := by
      intro l
      induction l with
      | nil => rfl
      | cons a as ih => simp [ih]; omega
    have hbs : ¬ blockSize rest b > MAXSIZE := by
      unfold blockSize
      rw [hsum, ← hts]
      rw [← hts] at hsize
      have h2' : p.size = cfg.size0 + (ts.map (·.size)).sum := h2
      omega
    have hrew : (b.txs.any fun t => t.kind == .reward) = false := by
      rw [List.any_eq_false]
      intro t ht
      rw [htxs] at ht
      rcases hmem t ht with h | ⟨c, hc, x, v, rfl⟩
      · cases h
      · rcases hin c hc with rfl | ⟨s, rfl, _⟩
        · show ¬ ((cfg.median x v).kind == .reward) = true
          rw [(hown.median x v).1]; decide
        · have := (hkind s hc).2.1
          simpa [Cand.get] using this
    have hcount : (b.txs.filter fun t => t.kind == .median).length = 1 := by
      have h8 : (p.txs.filter fun t => t.kind == .median).length ≤ 1 := by
        simp only [List.filter_nil, List.length_nil, Nat.zero_add] at hmc
        omega
      have h9 : tm ∈ p.txs.filter fun t => t.kind == .median := List.mem_filter.2 ⟨by rw [← htxs]; exact htm, by simp [htk]⟩
      have := List.length_pos_of_mem h9
      rw [htxs]
      omega
    have hnod : (b.rewardId :: b.txs.map (·.id)).Nodup := by
      rw [List.nodup_cons, htxs, hri]
      refine ⟨?_, hnd⟩
      intro h
      obtain ⟨t, ht, he⟩ := List.mem_map.1 h
      rcases hmem t ht with h | ⟨c, hc, x, v, rfl⟩
      · cases h
      · rcases hin c hc with rfl | ⟨s, rfl, _⟩
        · exact (hown.median x v).2.2.1 he
        · exact (hkind s hc).2.2 he
    refine ⟨p.view, ?_⟩
    unfold checkWork
    have hany : (b.txs.any fun t => t.kind == .median) = true := List.any_eq_true.2 ⟨tm, htm, by simp [htk]⟩
    rw [if_neg (by simp [hany])]
    unfold connect
    rw [if_neg hbs, if_neg (by simp [hrew]), if_neg (by simp [hcount]), if_neg (by simp [hnod])]
    rw [hts] at h4
    have h4' : connAll cfg m b e.prev 1 b.txs { view := m.base, fuel := 0, fuelFee := 0, wicc := 0, wusd := 0 } = .ok p.conn := by
      rw [hm.2.1]; exact h4
    rw [h4']
    have hmod : b.fuelFee % 2 ^ 32 = p.conn.fuelFee := by
      rw [Nat.mod_eq_of_lt hfuel, hff]; rfl
    simp only
    rw [if_neg (by rw [hmod]; simp), if_neg (by rw [hwi, hwu]; simp [Pack.conn])]
    rfl

theorem pack_size {V : Type} {cfg : Cfg V} {e : Env} {tip : Nat} : ∀ (cs : List (Cand V)) (p q : Pack V),
    packAll cfg e tip cs p = some q → p.size = cfg.size0 + (p.txs.map (·.size)).sum → (p.txs ≠ [] → p.size < cfg.maxSize) →
      q.size = cfg.size0 + (q.txs.map (·.size)).sum ∧ (q.txs ≠ [] → q.size < cfg.maxSize)
  | [], p, q, h, h1, h2 => by rw [← Option.some.inj h]; exact ⟨h1, h2⟩
  | c :: cs, p, q, h, h1, h2 => by
    unfold packAll at h
    cases hp : pack cfg e tip p c with
    | none => rw [hp] at h; cases h
    | some p' =>
      rw [hp] at h
      have h : packAll cfg e tip cs p' = some q := h
      have : p'.size = cfg.size0 + (p'.txs.map (·.size)).sum ∧ (p'.txs ≠ [] → p'.size < cfg.maxSize) := by
        unfold pack at hp
        simp only at hp
        split at hp
        · rw [← Option.some.inj hp]; exact ⟨h1, h2⟩
        · rename_i hs
          split at hp
          · rw [← Option.some.inj hp]; exact ⟨h1, h2⟩
          · split at hp
            · rw [← Option.some.inj hp]; exact ⟨h1, h2⟩
            · split at hp
              · cases hp
              · rw [← Option.some.inj hp]
                refine ⟨by simp [h1, Nat.add_assoc], fun _ => ?_⟩
                simp only
                omega
      exact pack_size cs p' q h this.1 this.2

/-- With the default size limit and transactions of at least 16 bytes there is always room for the type bytes. -/
theorem own_block_default_partial {V : Type} (cfg : Cfg V) (e : Env) (n : Node V) (g : Tx V → Nat) (mid cut rewardId rest : Nat)
    (settle : Option (Tx V)) (order : List (Cand V)) (b : Block V) (hr : Reach e n) (ho : Order g n mid settle order)
    (hown : Own cfg n settle rewardId) (hb : assemble cfg e n order cut rewardId = some b)
    (hmed : ∃ t ∈ b.txs, t.kind = .median) (hedge : ∀ t ∈ n.pool, t.validHeight ≠ (n.tip : Int) + 1 + 250)
    (hfuel : b.fuelFee < 2 ^ 32) (hmax : cfg.maxSize = 3750000) (hrest : rest ≤ cfg.size0 + 1000) (hlen : ∀ t ∈ b.txs, 16 ≤ t.size) :
    ∃ v, checkWork cfg n e.prev rest b = .ok v := by
  refine own_block_partial cfg e n g mid cut rewardId rest settle order b hr ho hown hb hmed hedge hfuel ?_ n ⟨rfl, rfl, rfl⟩
  unfold assemble at hb
  cases hp : packAll cfg e n.tip (order.take cut)
      { view := n.base, size := cfg.size0, fuel := 0, fuelFee := 0, wicc := 0, wusd := 0, txs := [] } with
  | none => rw [hp] at hb; cases hb
  | some p =>
    rw [hp] at hb
    have htxs : b.txs = p.txs := by rw [← Option.some.inj hb]
    obtain ⟨h1, h2⟩ := pack_size _ _ _ hp (by simp) (by simp)
    obtain ⟨t, ht, _⟩ := hmed
    have := h2 (by rw [← htxs]; exact List.ne_nil_of_mem ht)
    rw [← htxs] at h1
    have hsum : 16 * b.txs.length ≤ (b.txs.map (·.size)).sum := by
      generalize b.txs = l at hlen
      induction l with
      | nil => simp
      | cons a as ih =>
        have := hlen a (by simp)
        have := ih fun t ht => hlen t (by simp [ht])
        simp only [List.length_cons, List.map_cons, List.sum_cons]
        omega
    unfold MAXSIZE
    omega

/-! Some tree and some order exist for every pool. -/

def spine {V : Type} : List (Item V) → Tree V
  | [] => .leaf
  | x :: xs => .node .leaf x (spine xs)

theorem spine_flat {V : Type} : ∀ l : List (Item V), (spine l).flat = l
  | [] => rfl
  | x :: xs => by simp [spine, Tree.flat, spine_flat xs]

theorem built_exists {V : Type} (ks : List (Item V)) : ∃ t, Built ks t := by
  induction ks using List.reverseRecOn with
  | nil => exact ⟨.leaf, Built.nil _ rfl⟩
  | append_singleton ks k ih =>
    obtain ⟨t, ht⟩ := ih
    exact ⟨spine (t.insert k), Built.snoc ks k t _ ht (spine_flat _)⟩

theorem order_exists {V : Type} (g : Tx V → Nat) (n : Node V) (mid : Nat) (s : Option (Tx V)) : ∃ o, Order g n mid s o := by
  obtain ⟨t, ht⟩ := built_exists (items g n mid s)
  exact ⟨_, t, ht, rfl⟩

theorem own_sample (pool : List (Tx Nat)) (h : ∀ t ∈ pool, t.id < 5000) : Own cfg ⟨1000, 0, fun _ => false, pool, 1⟩ none 6000 := by
  refine ⟨fun c v => ⟨rfl, rfl, by show (5000 : Nat) ≠ 6000; decide, fun t ht => ?_⟩, (by simp), fun t ht => ?_⟩
  · have := h t ht
    show t.id ≠ 5000
    omega
  · have := h t ht
    omega

theorem perm_pair {A : Type} {l : List A} {a b : A} (h : l.Perm [a, b]) : l = [a, b] ∨ l = [b, a] := by
  have hl := h.length_eq
  match l, hl with
  | [x, y], _ =>
    have hx : x ∈ [a, b] := h.mem_iff.1 (by simp)
    simp only [List.mem_cons, List.not_mem_nil, or_false] at hx
    rcases hx with rfl | rfl
    · have := h.cons_inv
      rw [List.perm_singleton] at this
      rw [this]; exact Or.inl rfl
    · have := (h.trans (List.Perm.swap _ _ _)).cons_inv
      rw [List.perm_singleton] at this
      rw [this]; exact Or.inr rfl

theorem sample_block {h : Int} {order : List (Cand Nat)} {cut : Nat} (hc : 2 ≤ cut)
    (ho : Order (fun _ => 5) ⟨1000, 0, fun _ => false, [plain 1 h], 1⟩ 5000 none order) (hr : 751 ≤ h) (hr' : h ≤ 1251) :
    ∃ b, assemble cfg env ⟨1000, 0, fun _ => false, [plain 1 h], 1⟩ order cut 6000 = some b ∧
      (b.txs = [plain 1 h, medianTx] ∨ b.txs = [medianTx, plain 1 h]) ∧ b.fuelFee = 0 := by
  have hp := order_cands (reach_ok (reach_plain 1 h hr hr')).1 (by simp) ho
  rw [items_cands] at hp
  have hp : order.Perm [.tx (plain 1 h), .median] := hp
  have ht : order.take cut = order := List.take_of_length_le (by have := hp.length_eq; simp at this; omega)
  unfold assemble
  rw [ht]
  rcases perm_pair hp with rfl | rfl
  · exact ⟨_, rfl, Or.inl rfl, rfl⟩
  · exact ⟨_, rfl, Or.inr rfl, rfl⟩

example : ∃ order b, Order (fun _ => 5) ⟨1000, 0, fun _ => false, [plain 1 1250], 1⟩ 5000 none order ∧
    assemble cfg env ⟨1000, 0, fun _ => false, [plain 1 1250], 1⟩ order 2 6000 = some b ∧
    ∃ v, checkWork cfg ⟨1000, 0, fun _ => false, [plain 1 1250], 1⟩ env.prev 600 b = .ok v := by
  obtain ⟨order, ho⟩ := order_exists (fun _ => 5) (⟨1000, 0, fun _ => false, [plain 1 1250], 1⟩ : Node Nat) 5000 none
  obtain ⟨b, hb, ht, hf⟩ := sample_block (le_refl 2) ho (by omega) (by omega)
  refine ⟨order, b, ho, hb, ?_⟩
  refine own_block_default_partial cfg env _ _ _ _ _ _ none order b (reach_plain 1 1250 (by omega) (by omega)) ho
    (own_sample _ (by simp [plain])) hb ?_ (by simp [plain]) (by rw [hf]; omega) rfl (by show 600 ≤ 300 + 1000; omega) ?_
  · rcases ht with ht | ht <;> rw [ht] <;> exact ⟨medianTx, by simp, rfl⟩
  · rcases ht with ht | ht <;> rw [ht] <;> simp [plain, medianTx]

/-- A block with a transaction at the far edge of the window of the pool is refused by every node with that tip. -/
theorem edge_refused {V : Type} (cfg : Cfg V) (m : Node V) (prev rest : Nat) (b : Block V) (t : Tx V) (ht : t ∈ b.txs)
    (hk : t.kind = .feed ∨ t.kind = .other) (hv : t.validHeight = (m.tip : Int) + 1 + 250) :
    ∀ v, connect cfg m prev rest b ≠ .ok v := by
  have hbad : validAt t (m.tip : Int) = false := by
    unfold validAt half
    rcases hk with hk | hk <;> rw [hk] <;> simp <;> omega
  have hall : ∀ (ts : List (Tx V)) (i : Nat) (s s' : Conn V), t ∈ ts → connAll cfg m b prev i ts s ≠ .ok s' := by
    intro ts
    induction ts with
    | nil => intro i s s' h; cases h
    | cons x xs ih =>
      intro i s s' h he
      unfold connAll at he
      rcases List.mem_cons.1 h with rfl | h
      · have : ∀ s'', connTx cfg m b prev i s t ≠ .ok s'' := by
          intro s'' hx
          unfold connTx at hx
          rw [hbad] at hx
          split at hx
          · cases hx
          · simp at hx
        cases hx : connTx cfg m b prev i s t with
        | ok s'' => exact this s'' hx
        | bad => rw [hx] at he; cases he
        | stop => rw [hx] at he; cases he
      · cases hx : connTx cfg m b prev i s x with
        | ok s'' => rw [hx] at he; exact ih _ _ _ h he
        | bad => rw [hx] at he; cases he
        | stop => rw [hx] at he; cases he
  intro v h
  unfold connect at h
  split at h
  · cases h
  · split at h
    · cases h
    · split at h
      · cases h
      · split at h
        · cases h
        · cases hc : connAll cfg m b prev 1 b.txs { view := m.base, fuel := 0, fuelFee := 0, wicc := 0, wusd := 0 } with
          | ok s => exact hall _ _ _ _ ht hc
          | bad => rw [hc] at h; cases h
          | stop => rw [hc] at h; cases h

/-- A node whose pool took in, by the rules, one harmless transaction: whatever block it goes on to make with it is refused, by itself
and by every other node, as long as the tip is the same. -/
theorem edge_violated : ∃ n : Node Nat, Reach env n ∧ Own cfg n none 6000 ∧ n.pool.length = 1 ∧
    ∀ (order : List (Cand Nat)) (cut rest : Nat), 2 ≤ cut → Order (fun _ => 5) n 5000 none order →
      ∃ b, assemble cfg env n order cut 6000 = some b ∧ (∃ t ∈ b.txs, t.kind = .median) ∧ b.fuelFee = 0 ∧
        ∀ m : Node Nat, m.tip = n.tip → ∀ v, checkWork cfg m env.prev rest b ≠ .ok v := by
  refine ⟨⟨1000, 0, fun _ => false, [plain 1 1251], 1⟩, reach_plain 1 1251 (by omega) (by omega), own_sample _ (by simp [plain]), rfl, ?_⟩
  intro order cut rest hc ho
  obtain ⟨b, hb, ht, hf⟩ := sample_block hc ho (by omega) (by omega)
  refine ⟨b, hb, ?_, hf, ?_⟩
  · rcases ht with ht | ht <;> rw [ht] <;> exact ⟨medianTx, by simp, rfl⟩
  · intro m hm v h
    unfold checkWork at h
    split at h
    · cases h
    · refine edge_refused cfg m env.prev rest b (plain 1 1251) ?_ (Or.inr rfl) ?_ v h
      · rcases ht with ht | ht <;> rw [ht] <;> simp
      · rw [hm]; rfl

/-- The header keeps 32 bits of the fuel fees; a block with more is refused by its own producer. -/
theorem fuel_violated : ∃ (cfg' : Cfg Nat) (n : Node Nat) (b : Block Nat), Reach { env with rate := 1000 } n ∧ Own cfg' n none 6000 ∧
    assemble cfg' { env with rate := 1000 } n [.median, .tx { plain 1 1001 with fee := 5000000000, exec := fun _ v => some (v + 1, 500000000) }]
      2 6000 = some b ∧ b.fuelFee = 5000000000 ∧
      ∀ m : Node Nat, m.tip = n.tip → m.base = n.base → m.conf = n.conf → checkWork cfg' m env.prev 600 b = .bad := by
  let t : Tx Nat := { plain 1 1001 with fee := 5000000000, exec := fun _ v => some (v + 1, 500000000) }
  let c : Cfg Nat := { cfg with fuelFee := fun f r => f / 100 * r }
  let n : Node Nat := ⟨1000, 0, fun _ => false, [t], 1⟩
  refine ⟨c, n, ⟨1001, [medianTx, t], 5000000000, 1000, 20, 3, 0, 0, 6000⟩, ?_, ?_, ?_, rfl, ?_⟩
  · exact Reach.accept _ start n t (Reach.start _ _ _ _) rfl
  · have := own_sample [t] (by simp [t, plain])
    exact ⟨this.median, this.settle, this.reward⟩
  · simp [assemble, packAll, pack, Cand.get, c, n, t, cfg, medianTx, plain, Tx.run, env, MAXFUEL, wadd, U64]
  · rintro ⟨tip, base, conf, pool, view⟩ h1 h2 h3
    simp only at h1 h2 h3
    subst h1 h2 h3
    simp [checkWork, connect, connAll, connTx, blockSize, MAXSIZE, c, n, t, cfg, medianTx, plain, Tx.run, env, MAXFUEL, wadd, U64,
      validAt, half, List.filter_cons]

/-! A pool with many transactions of the same size. -/

def big (s i : Nat) : Tx Nat := { plain i 1001 with size := s }
def bulk (s k : Nat) : List (Tx Nat) := (List.range k).map (big s)
def bulkNode (s k : Nat) : Node Nat := ⟨1000, 0, fun _ => false, bulk s k, k⟩
def cfgS (mx : Nat) : Cfg Nat := { cfg with maxSize := mx, size0 := 100 }

theorem insertTx_last {V : Type} {t : Tx V} : ∀ {l : List (Tx V)}, (∀ x ∈ l, x.id < t.id) → insertTx t l = l ++ [t]
  | [], _ => rfl
  | x :: xs, h => by
    have := h x (by simp)
    unfold insertTx
    rw [if_neg (by omega), if_neg (by omega), insertTx_last fun y hy => h y (by simp [hy])]
    rfl

theorem bulk_id {s k : Nat} {t : Tx Nat} (h : t ∈ bulk s k) : ∃ i < k, t = big s i := by
  obtain ⟨i, hi, rfl⟩ := List.mem_map.1 h
  exact ⟨i, List.mem_range.1 hi, rfl⟩

theorem reach_bulk (s k : Nat) : Reach env (bulkNode s k) := by
  induction k with
  | zero => exact Reach.start _ _ _ _
  | succ k ih =>
    refine Reach.accept env (bulkNode s k) _ (big s k) ih ?_
    have hany : ((bulkNode s k).pool.any fun x => x.id == (big s k).id) = false := by
      rw [List.any_eq_false]
      intro x hx
      obtain ⟨i, hi, rfl⟩ := bulk_id hx
      show ¬ (i == k) = true
      simp; omega
    have hins : insertTx (big s k) (bulkNode s k).pool = bulk s (k + 1) := by
      rw [insertTx_last]
      · show bulk s k ++ [big s k] = _
        simp [bulk, List.range_succ]
      · intro x hx
        obtain ⟨i, hi, rfl⟩ := bulk_id hx
        exact hi
    have hin : inPool env (bulkNode s k) (big s k) (bulkNode s k).pool.length = some (k + 1) := by
      unfold inPool
      have : validAt (big s k) (((bulkNode s k).tip : Int) + 1) = true := by
        simp [validAt, big, plain, half, bulkNode]
      rw [this]
      rfl
    unfold accept
    rw [hany, hins, hin]
    rfl

/-- The transaction of a candidate in the samples. -/
def fix : Cand Nat → Tx Nat
  | .tx t => t
  | .median => medianTx

/-- Always runs, without fuel. -/
def Easy (c : Cand Nat) : Prop := ∀ x v, ∃ w, (fix c).run x v = some (w, 0)

theorem pack_full (mx tip : Nat) : ∀ (cs : List (Cand Nat)) (p : Pack Nat), (∀ c ∈ cs, Easy c) → p.fuel = 0 → p.fuelFee = 0 →
    p.size + (cs.map fun c => (fix c).size).sum < mx →
      ∃ q, packAll (cfgS mx) env tip cs p = some q ∧ q.txs = p.txs ++ cs.map fix ∧ q.fuel = 0 ∧ q.fuelFee = 0 ∧
        q.size = p.size + (cs.map fun c => (fix c).size).sum
  | [], p, _, h1, h2, _ => ⟨p, rfl, by simp, h1, h2, by simp⟩
  | c :: cs, p, he, h1, h2, hs => by
    have hget : ∀ x v, c.get (cfgS mx) x v = fix c := by intro x v; cases c <;> rfl
    obtain ⟨w, hw⟩ := he c (by simp) (ctx env tip (p.txs.length + 1)) p.view
    simp only [List.map_cons, List.sum_cons] at hs
    have hp : ∃ p', pack (cfgS mx) env tip p c = some p' ∧ p'.txs = p.txs ++ [fix c] ∧ p'.fuel = 0 ∧ p'.fuelFee = 0 ∧
        p'.size = p.size + (fix c).size := by
      unfold pack
      simp only [hget]
      rw [if_neg (by show ¬ p.size + (fix c).size ≥ mx; omega), hw]
      simp only
      rw [h1, if_neg (by decide)]
      have hff : (cfgS mx).fuelFee 0 env.rate = 0 := rfl
      rw [hff, if_neg (by omega)]
      exact ⟨_, rfl, rfl, rfl, by rw [h2]; rfl, rfl⟩
    obtain ⟨p', hp, h3, h4, h5, h6⟩ := hp
    obtain ⟨q, hq, g1, g2, g3, g4⟩ := pack_full mx tip cs p' (fun c' hc' => he c' (by simp [hc'])) h4 h5 (by omega)
    refine ⟨q, ?_, by rw [g1, h3]; simp, g2, g3, by rw [g4, h6]; simp [Nat.add_assoc]⟩
    unfold packAll
    rw [hp]
    exact hq

theorem assemble_some {mx s k cut r : Nat} {order cs : List (Cand Nat)} {q : Pack Nat} (ht : order.take cut = cs)
    (hq : packAll (cfgS mx) env 1000 cs { view := 0, size := 100, fuel := 0, fuelFee := 0, wicc := 0, wusd := 0, txs := [] } = some q) :
    assemble (cfgS mx) env (bulkNode s k) order cut r =
      some { height := 1001, txs := q.txs, fuelFee := q.fuelFee, rate := 1, time := 20, bp := 3, wicc := q.wicc, wusd := q.wusd
             rewardId := r } := by
  unfold assemble
  have hq' : packAll (cfgS mx) env (bulkNode s k).tip (order.take cut)
      { view := (bulkNode s k).base, size := (cfgS mx).size0, fuel := 0, fuelFee := 0, wicc := 0, wusd := 0, txs := [] } = some q := by
    rw [ht]; exact hq
  rw [hq']
  rfl

theorem bulk_cands (s k : Nat) (settle : Option (Tx Nat)) :
    (items (fun _ => 5) (bulkNode s k) 5000 settle).map (·.cand) =
      (bulk s k).map Cand.tx ++ (Cand.median :: settle.toList.map Cand.tx) := by
  rw [items_cands]
  congr 2
  show List.filter _ (bulk s k) = bulk s k
  rw [List.filter_eq_self]
  intro t ht
  obtain ⟨i, _, rfl⟩ := bulk_id ht
  rfl

theorem bulk_sum (s k : Nat) : (((bulk s k).map Cand.tx).map fun c => (fix c).size).sum = k * s := by
  induction k with
  | zero => simp [bulk]
  | succ k ih =>
    have : bulk s (k + 1) = bulk s k ++ [big s k] := by simp [bulk, List.range_succ]
    rw [this]
    simp only [List.map_append, List.sum_append, ih]
    simp [fix, big, Nat.succ_mul]

theorem easy_bulk {s k : Nat} {c : Cand Nat} (h : c ∈ (bulk s k).map Cand.tx ++ [Cand.median]) : Easy c := by
  intro x v
  rcases List.mem_append.1 h with h | h
  · obtain ⟨t, ht, rfl⟩ := List.mem_map.1 h
    obtain ⟨i, _, rfl⟩ := bulk_id ht
    exact ⟨v + 1, rfl⟩
  · rw [List.mem_singleton] at h
    subst h
    exact ⟨v, rfl⟩

theorem bulk_height (s k : Nat) : ∀ t ∈ (bulkNode s k).pool, t.validHeight = ((bulkNode s k).tip : Int) + 1 := by
  intro t ht
  obtain ⟨i, _, rfl⟩ := bulk_id ht
  rfl

theorem own_bulk (mx s k : Nat) (hk : k ≤ 5000) : Own (cfgS mx) (bulkNode s k) none 6000 := by
  refine ⟨fun c v => ⟨rfl, rfl, by show (5000 : Nat) ≠ 6000; decide, fun t ht => ?_⟩, (by simp), fun t ht => ?_⟩
  · obtain ⟨i, hi, rfl⟩ := bulk_id ht
    show i ≠ 5000
    omega
  · obtain ⟨i, hi, rfl⟩ := bulk_id ht
    show i ≠ 6000
    omega

/-- The largest size an operator may configure, `MAX_BLOCK_SIZE - 1000`, does not leave room for the type bytes: all transactions are
harmless and fit by the producer's count, but the block is longer than `MAX_BLOCK_SIZE`. -/
theorem size_violated : ∃ n : Node Nat, Reach env n ∧ Own (cfgS 3999000) n none 6000 ∧ (∀ t ∈ n.pool, t.validHeight = n.tip + 1) ∧
    ∀ (order : List (Cand Nat)) (cut : Nat), n.pool.length < cut → Order (fun _ => 5) n 5000 none order →
      ∃ b, assemble (cfgS 3999000) env n order cut 6000 = some b ∧ (∃ t ∈ b.txs, t.kind = .median) ∧ b.fuelFee = 0 ∧
        ∀ (m : Node Nat) (rest : Nat), (cfgS 3999000).size0 ≤ rest → checkWork (cfgS 3999000) m env.prev rest b = .bad := by
  refine ⟨bulkNode 3076 1300, reach_bulk 3076 1300, own_bulk 3999000 3076 1300 (by omega), bulk_height _ _, ?_⟩
  · intro order cut hcut ho
    have hp := order_cands (reach_ok (reach_bulk 3076 1300)).1 (by simp) ho
    rw [bulk_cands] at hp
    have hp : order.Perm ((bulk 3076 1300).map Cand.tx ++ [Cand.median]) := hp
    have hlen : order.length = 1301 := by rw [hp.length_eq]; simp [bulk]
    have hcut' : 1300 < cut := by
      have : (bulkNode 3076 1300).pool.length = 1300 := by simp [bulkNode, bulk]
      omega
    have ht : order.take cut = order := List.take_of_length_le (by omega)
    have hsum : (order.map fun c => (fix c).size).sum = 3998850 := by
      rw [(hp.map _).sum_nat, List.map_append, List.sum_append, bulk_sum]
      rfl
    obtain ⟨q, hq, g1, _, g3, _⟩ := pack_full 3999000 1000 order
      { view := 0, size := 100, fuel := 0, fuelFee := 0, wicc := 0, wusd := 0, txs := [] }
      (fun c hc => easy_bulk (hp.mem_iff.1 hc)) rfl rfl (by rw [hsum]; decide)
    have hb := assemble_some (s := 3076) (k := 1300) (r := 6000) ht hq
    refine ⟨_, hb, ?_, g3, ?_⟩
    · refine ⟨medianTx, ?_, rfl⟩
      simp only [g1, List.nil_append]
      exact List.mem_map.2 ⟨.median, hp.mem_iff.2 (by simp), rfl⟩
    · intro m rest hrest
      have hrest : 100 ≤ rest := hrest
      unfold checkWork connect
      split
      · rfl
      · rw [if_pos]
        unfold blockSize
        simp only [g1, List.nil_append]
        have : ∀ l : List (Cand Nat), ((l.map fix).map fun t => t.size + 1).sum = (l.map fun c => (fix c).size).sum + l.length := by
          intro l
          induction l with
          | nil => rfl
          | cons a as ih => simp at ih ⊢; omega
        rw [this, hsum, hlen]
        unfold MAXSIZE
        omega

/-! ## C110: the pool can follow the tip -/

/-- However the node came about, the pool holds distinct, relayable, unconfirmed transactions that are valid at the next height, and
all of them can be executed one after another on the tip. -/
theorem pool_sound {V : Type} {e : Env} {n : Node V} (h : Reach e n) : Clean n ∧ Runs e n := reach_ok h

example : ∃ n : Node Nat, Reach env n ∧ n.pool.length = 1300 := ⟨bulkNode 3076 1300, reach_bulk _ _, by simp [bulkNode, bulk]⟩

/-- A transaction that is new, relayable, unconfirmed, in range and runs after the pool is taken in, and the others stay. -/
theorem pool_takes {V : Type} {e : Env} {n : Node V} {t : Tx V} {w : V} {fuel : Nat} (hnew : ∀ x ∈ n.pool, x.id ≠ t.id)
    (hk : t.kind = .feed ∨ t.kind = .other) (hc : n.conf t.id = false) (hr : inRange t (n.tip + 1))
    (hch : t.check { height := n.tip + 1, index := 0, rate := e.rate, time := e.time, prev := e.prev, bp := e.bp } n.view = true)
    (hx : t.exec { height := n.tip + 1, index := n.pool.length, rate := e.rate, time := e.time, prev := e.prev, bp := e.bp } n.view
      = some (w, fuel)) :
    ∃ m, accept e n t = some m ∧ m.pool.Perm (t :: n.pool) ∧ m.view = w ∧ m.base = n.base ∧ m.tip = n.tip := by
  have hany : (n.pool.any fun x => x.id == t.id) = false := by
    rw [List.any_eq_false]
    intro x hx
    simpa using hnew x hx
  have hf : forbidden t = false := by unfold forbidden; rcases hk with hk | hk <;> rw [hk]
  have hv : validAt t ((n.tip : Int) + 1) = true := by
    unfold inRange at hr
    unfold validAt half
    rcases hk with hk | hk <;> rw [hk] <;> simp <;> omega
  have hin : inPool e n t n.pool.length = some w := by
    unfold inPool ctx
    rw [hv, hc, hx]
    rfl
  refine ⟨{ n with pool := insertTx t n.pool, view := w }, ?_, insertTx_perm hnew, rfl, rfl, rfl⟩
  unfold accept ctx
  rw [hany, hf, hch, hin]
  rfl

example : ∃ m, accept env start (plain 1 1001) = some m ∧ m.pool.Perm (plain 1 1001 :: start.pool) ∧ m.view = 1 ∧ m.base = 0 ∧ m.tip = 1000 :=
  pool_takes (fuel := 0) (by simp [start]) (Or.inr rfl) rfl (by unfold inRange; decide) rfl rfl

/-- What does not run after the pool, is confirmed, is out of range or may not be relayed is not taken in. -/
theorem pool_refuses {V : Type} {e : Env} {n : Node V} {t : Tx V}
    (h : (∃ x ∈ n.pool, x.id = t.id) ∨ (t.kind = .reward ∨ t.kind = .median ∨ t.kind = .settle) ∨ n.conf t.id = true ∨
      ¬ inRange t (n.tip + 1) ∨
      t.exec { height := n.tip + 1, index := n.pool.length, rate := e.rate, time := e.time, prev := e.prev, bp := e.bp } n.view = none) :
    accept e n t = none := by
  cases ha : accept e n t with
  | none => rfl
  | some m =>
    obtain ⟨h1, h2, _, v, h3, _⟩ := accept_some ha
    obtain ⟨h4, h5, f, h6⟩ := inPool_some h3
    obtain ⟨h7, h8⟩ := validAt_range h2 h4
    rcases h with ⟨x, hx, he⟩ | h | h | h | h
    · exact absurd he (h1 x hx)
    · rcases h with h | h | h <;> rw [h] at h7 <;> simp at h7
    · rw [h] at h5; cases h5
    · exact absurd h8 h
    · have h6' : t.exec { height := n.tip + 1, index := n.pool.length, rate := e.rate, time := e.time, prev := e.prev, bp := e.bp }
          n.view = some (v, f) := h6
      rw [h] at h6'; cases h6'

example : accept env start (plain 1 1252) = none := pool_refuses (Or.inr (Or.inr (Or.inr (Or.inl (by unfold inRange; decide)))))

/-- A transaction that depends on another of the pool is thrown away by the check after any new block, if its id is the smaller one,
although both could still be executed one after the other on the new tip. -/
theorem dropped_violated : ∃ (n : Node Nat) (t : Tx Nat), Reach env n ∧ t ∈ n.pool ∧
    (∀ i, Follows (fun i => ctx env (n.tip + 1) i) n.base [(i, plain 2 1001), (i + 1, t)] n.view) ∧
    n.pool.Perm [plain 2 1001, t] ∧ inRange t (n.tip + 2) ∧ t ∉ (newTip env n n.base n.conf []).pool := by
  refine ⟨⟨1000, 0, fun _ => false, [child 1 1001, plain 2 1001], 2⟩, child 1 1001, ?_, by simp, ?_, List.Perm.swap _ _ _, ?_, ?_⟩
  · refine Reach.accept env ⟨1000, 0, fun _ => false, [plain 2 1001], 1⟩ _ (child 1 1001) (reach_plain 2 1001 (by omega) (by omega)) rfl
  · intro i
    exact Follows.cons _ 1 _ _ 0 _ _ rfl (Follows.cons _ 2 _ _ 0 _ _ rfl (Follows.nil _))
  · unfold inRange child plain; decide
  · intro h
    have : (newTip env (⟨1000, 0, fun _ => false, [child 1 1001, plain 2 1001], 2⟩ : Node Nat) 0 (fun _ => false) []).pool =
      [plain 2 1001] := rfl
    have h : child 1 1001 ∈ [plain 2 1001] := by rw [← this]; exact h
    rw [List.mem_singleton] at h
    have := congrArg Tx.id h
    cases this

/-! ## C111: better paying transactions first -/

/-- The set of candidates ends up in order, although the comparison is not one: price feeds first, then the price median, then the
others by falling fee rate; nothing is lost or doubled. -/
theorem order_sorted {V : Type} {e : Env} {n : Node V} (g : Tx V → Nat) (mid : Nat) (settle : Option (Tx V)) (t : Tree V)
    (h : Reach e n) (hs : ∀ s, settle = some s → ∀ x ∈ n.pool, x.id ≠ s.id) (hb : Built (items g n mid settle) t) :
    t.flat.Pairwise after ∧ t.flat.Perm (items g n mid settle) :=
  built_sorted hb (fits_items g mid (reach_ok h).1 hs)

/-- Every transaction of the pool is a candidate, with its own fee rate. -/
theorem items_pool {V : Type} {e : Env} {n : Node V} (g : Tx V → Nat) (mid : Nat) (settle : Option (Tx V)) (h : Reach e n) (t : Tx V)
    (ht : t ∈ n.pool) : ∃ x ∈ items g n mid settle, x.cand = .tx t ∧ x.fee = g t ∧ x.id = t.id ∧
      (t.kind = .feed → x.prio = 20000) ∧ (t.kind = .other → x.prio ≤ 1000) := by
  obtain ⟨hk, hc, _⟩ := (reach_ok h).1.2 t ht
  refine ⟨itemOf g t, ?_, rfl, rfl, rfl, ?_, ?_⟩
  · unfold items
    refine List.mem_append.2 (Or.inl (List.mem_map.2 ⟨t, List.mem_filter.2 ⟨ht, ?_⟩, rfl⟩))
    rcases hk with hk | hk <;> simp [hk, hc]
  · intro h; simp [itemOf, prioOf, h]
  · intro h
    have := Nat.div_le_self 1000 t.size
    simpa [itemOf, prioOf, h] using this

example : ∃ t : Tree Nat, Built (items (fun _ => 5) (bulkNode 100 3) 5000 none) t := built_exists _

/-- The comparison of two transactions says in both directions that the first is the smaller. -/
theorem less_violated : ∃ a b : Item Nat, less a b = true ∧ less b a = true :=
  ⟨⟨10, 7, 1, .median⟩, ⟨10, 5, 2, .median⟩, rfl, rfl⟩

/-- The forced settlement is the last candidate of all, behind every transaction that pays anything. -/
theorem settle_last {V : Type} {e : Env} {n : Node V} (g : Tx V → Nat) (mid : Nat) (s : Tx V) (order : List (Cand V)) (h : Reach e n)
    (hs : ∀ x ∈ n.pool, x.id ≠ s.id) (hg : ∀ x ∈ n.pool, 0 < g x) (ho : Order g n mid (some s) order) :
    ∃ o, order = o ++ [.tx s] ∧ o.Perm ((items g n mid none).map (·.cand)) := by
  obtain ⟨t, hb, rfl⟩ := ho
  obtain ⟨h1, h2⟩ := order_sorted g mid (some s) t h (fun x hx => by rw [← Option.some.inj hx]; exact hs) hb
  have hit : items g n mid (some s) = items g n mid none ++ [{ prio := 1000, fee := 0, id := s.id, cand := .tx s }] := by
    simp [items]
  have hbig : ∀ x ∈ items g n mid none, after { prio := 1000, fee := 0, id := s.id, cand := .tx s } x := by
    intro x hx
    unfold items at hx
    rcases List.mem_append.1 hx with hx | hx
    · obtain ⟨y, hy, rfl⟩ := List.mem_map.1 hx
      have := hg y (List.mem_filter.1 hy).1
      unfold after
      have hg0 : group 1000 = 0 := rfl
      simp only [hg0, itemOf]
      omega
    · simp only [List.mem_singleton] at hx
      subst hx
      left
      show group 1000 < group 10000
      decide
  rw [hit] at h2
  cases hf : t.flat with
  | nil =>
    rw [hf] at h2
    have := h2.length_eq
    simp at this
  | cons x l =>
    rw [hf] at h1 h2
    rw [List.pairwise_cons] at h1
    have hx : x ∈ items g n mid none ++ [{ prio := 1000, fee := 0, id := s.id, cand := .tx s }] := h2.mem_iff.1 (by simp)
    have hm : ({ prio := 1000, fee := 0, id := s.id, cand := .tx s } : Item V) ∈ x :: l := h2.mem_iff.2 (by simp)
    have hxe : x = { prio := 1000, fee := 0, id := s.id, cand := .tx s } := by
      rcases List.mem_append.1 hx with hx | hx
      · rcases List.mem_cons.1 hm with hm | hm
        · exact hm.symm
        · exfalso
          have a1 := hbig x hx
          have a2 := h1.1 _ hm
          unfold after at a1 a2
          omega
      · simpa using hx
    subst hxe
    have h3 : l.Perm (items g n mid none) := (h2.trans (List.perm_append_comm (l₂ := [_]))).cons_inv
    refine ⟨l.reverse.map (·.cand), by simp, ?_⟩
    exact ((List.reverse_perm _).trans h3).map _

theorem packAll_append {V : Type} (cfg : Cfg V) (e : Env) (tip : Nat) : ∀ (a b : List (Cand V)) (p : Pack V),
    packAll cfg e tip (a ++ b) p = (packAll cfg e tip a p).bind (packAll cfg e tip b)
  | [], b, p => rfl
  | c :: a, b, p => by
    simp only [List.cons_append, packAll]
    cases pack cfg e tip p c with
    | none => rfl
    | some q => exact packAll_append cfg e tip a b q

/-- The forced settlement of interest, as the producer makes it when some loans are due; it always succeeds. -/
def due : Tx Nat := { settleTx 1001 with size := 300 }

theorem own_due (mx s k : Nat) (hk : k ≤ 5000) : Own (cfgS mx) (bulkNode s k) (some due) 6000 := by
  have h := own_bulk mx s k hk
  refine ⟨h.median, ?_, h.reward⟩
  intro t ht
  have ht : due = t := Option.some.inj ht
  subst ht
  refine ⟨rfl, rfl, by show (7000 : Nat) ≠ 6000; decide, rfl, fun x hx => ?_, fun _ _ => by show (5000 : Nat) ≠ 7000; decide⟩
  obtain ⟨i, hi, rfl⟩ := bulk_id hx
  show i ≠ 7000
  omega

/-- Transactions that pay the ordinary fee keep the forced settlement out of the block, with time enough and the default size, and the
block is accepted. -/
theorem settle_violated : ∃ n : Node Nat, Reach env n ∧ Own (cfgS 3750000) n (some due) 6000 ∧
    (∀ c v, ∃ w, due.run c v = some (w, 0)) ∧
    ∀ (order : List (Cand Nat)) (cut : Nat), n.pool.length + 1 < cut → Order (fun _ => 5) n 5000 (some due) order →
      ∃ b v, assemble (cfgS 3750000) env n order cut 6000 = some b ∧ (∀ t ∈ b.txs, t.kind ≠ .settle) ∧
        checkWork (cfgS 3750000) n env.prev 600 b = .ok v := by
  refine ⟨bulkNode 3076 1219, reach_bulk _ _, own_due _ _ _ (by omega), fun _ v => ⟨v, rfl⟩, ?_⟩
  intro order cut hcut ho
  have hown := own_due 3750000 3076 1219 (by omega)
  obtain ⟨o, hoe, hp⟩ := settle_last (fun _ => 5) 5000 due order (reach_bulk 3076 1219) (hown.settle due rfl).2.2.2.2.1
    (fun _ _ => by omega) ho
  rw [bulk_cands] at hp
  have hp : o.Perm ((bulk 3076 1219).map Cand.tx ++ [Cand.median]) := hp
  have hlen : o.length = 1220 := by rw [hp.length_eq]; simp [bulk]
  have hcut' : 1220 < cut := by
    have : (bulkNode 3076 1219).pool.length = 1219 := by simp [bulkNode, bulk]
    omega
  have ht : order.take cut = o ++ [.tx due] := by rw [hoe]; exact List.take_of_length_le (by simp; omega)
  have hsum : (o.map fun c => (fix c).size).sum = 3749694 := by
    rw [(hp.map _).sum_nat, List.map_append, List.sum_append, bulk_sum]
    rfl
  obtain ⟨q, hq, g1, g2, g3, g4⟩ := pack_full 3750000 1000 o
    { view := 0, size := 100, fuel := 0, fuelFee := 0, wicc := 0, wusd := 0, txs := [] }
    (fun c hc => easy_bulk (hp.mem_iff.1 hc)) rfl rfl (by rw [hsum]; decide)
  have hq' : packAll (cfgS 3750000) env 1000 (o ++ [.tx due])
      { view := 0, size := 100, fuel := 0, fuelFee := 0, wicc := 0, wusd := 0, txs := [] } = some q := by
    rw [packAll_append, hq]
    have : pack (cfgS 3750000) env 1000 q (.tx due) = some q := by
      unfold pack
      rw [if_pos]
      show q.size + 300 ≥ 3750000
      rw [g4, hsum]
      decide
    simp [packAll, this]
  have hb := assemble_some (s := 3076) (k := 1219) (r := 6000) ht hq'
  have htx : q.txs = o.map fix := by rw [g1]; rfl
  have hmemq : ∀ t ∈ q.txs, t = medianTx ∨ ∃ i, t = big 3076 i := by
    intro t ht
    rw [htx] at ht
    obtain ⟨c, hc, rfl⟩ := List.mem_map.1 ht
    rcases List.mem_append.1 (hp.mem_iff.1 hc) with h | h
    · obtain ⟨x, hx, rfl⟩ := List.mem_map.1 h
      obtain ⟨i, _, rfl⟩ := bulk_id hx
      exact Or.inr ⟨i, rfl⟩
    · rw [List.mem_singleton] at h
      subst h
      exact Or.inl rfl
  obtain ⟨v, hv⟩ := own_block_default_partial (cfgS 3750000) env (bulkNode 3076 1219) _ _ _ _ 600 (some due) order _ (reach_bulk _ _) ho
    hown hb ⟨medianTx, by rw [htx]; exact List.mem_map.2 ⟨.median, hp.mem_iff.2 (by simp), rfl⟩, rfl⟩
    (by
      intro t ht
      rw [bulk_height _ _ t ht]
      omega)
    (by show q.fuelFee < _; rw [g3]; omega) rfl (by show 600 ≤ 100 + 1000; omega)
    (by
      intro t ht
      rcases hmemq t ht with rfl | ⟨i, rfl⟩
      · show 16 ≤ 50; omega
      · show 16 ≤ 3076; omega)
  refine ⟨_, v, hb, ?_, hv⟩
  intro t ht
  rcases hmemq t ht with rfl | ⟨i, rfl⟩
  · show Kind.median ≠ Kind.settle; decide
  · show Kind.other ≠ Kind.settle; decide

/-! ## C112: a peer that asks is told the pool -/

/-- What a peer should be told. -/
def Told {V : Type} (n : Node V) (ids : List Nat) : Prop := ∀ t ∈ n.pool, t.id ∈ ids

/-- No pool is ever told to a peer. -/
theorem told_violated : (∀ n : Node Nat, poolMessage n = []) ∧ ∃ n : Node Nat, Reach env n ∧ n.pool ≠ [] ∧ ¬ Told n (poolMessage n) := by
  have h0 : ∀ n : Node Nat, poolMessage n = [] := by
    intro n
    unfold poolMessage
    rw [List.filter_eq_nil_iff]
    intro i hi
    obtain ⟨t, ht, rfl⟩ := List.mem_map.1 hi
    have : (n.pool.any fun x => x.id == t.id) = true := List.any_eq_true.2 ⟨t, ht, by simp⟩
    simp [this]
  refine ⟨h0, ⟨1000, 0, fun _ => false, [plain 1 1001], 1⟩, reach_plain 1 1001 (by omega) (by omega), by simp, ?_⟩
  intro h
  have := h (plain 1 1001) (by simp)
  rw [h0] at this
  cases this

end Verif.Mine.Props
