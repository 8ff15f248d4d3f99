import Verif.Spec.Chain
import Verif.Proofs.TreeFree
/-!
# Node chains: the array and the stack
-/
namespace R53
namespace Dom
variable {T : Type}

namespace NodeChain
variable {c : NodeChain}

theorem Fit.new : Fit new := ⟨by simp [NodeChain.new], by simp [NodeChain.new]⟩

theorem Fit.length (h : c.Fit) : c.stacked.length = c.level_count := by
  have h1 := h.size
  have h2 := h.count
  simp [stacked]; omega

theorem take_set {l : List Ptr} {n : Nat} {p : Ptr} (h : n < l.length) : (l.set n p).take (n + 1) = l.take n ++ [p] := by
  rw [List.take_succ, List.take_set_of_le (Nat.le_refl _)]
  simp [h]

theorem push_ok (h : c.Fit) (hl : c.level_count < 128) (p : Ptr) : ∃ c', c.push p = .ok c' ∧ c'.Fit ∧ c'.stacked = c.stacked ++ [p] ∧
    c'.level_count = c.level_count + 1 ∧ c'.last_compared = c.last_compared ∧ c'.last_compared_result = c.last_compared_result ∧ c'.nodes = c.nodes.set c.level_count p := by
  have h1 := h.size
  refine ⟨{ c with nodes := c.nodes.set c.level_count p, level_count := c.level_count + 1 }, ?_, ⟨?_, ?_⟩, ?_, rfl, rfl, rfl, rfl⟩
  · unfold push; rw [assertR_bind_ok hl]; rfl
  · simpa using h1
  · simp only; omega
  · simp only [stacked]
    exact take_set (by omega)

theorem push_panic (hl : ¬ c.level_count < 128) (p : Ptr) : c.push p = .panic := by
  unfold push assertR
  rw [if_neg hl]; rfl

theorem idx_stacked (h : c.Fit) (hl : 0 < c.level_count) : ∃ p, idx c.nodes (c.level_count - 1) = .ok p ∧ c.stacked.getLast? = some p ∧
    c.nodes.take (c.level_count - 1) = c.stacked.dropLast := by
  have h1 := h.size
  have h2 := h.count
  have hlt : c.level_count - 1 < c.nodes.length := by omega
  refine ⟨_, idx_of_lt hlt, ?_, ?_⟩
  · rw [List.getLast?_eq_getElem?, h.length, stacked, List.getElem?_take]
    rw [if_pos (by omega), List.getElem?_eq_getElem hlt]
  · rw [stacked, List.dropLast_eq_take, List.length_take, List.take_take]
    congr 1; omega

theorem stacked_nil (h : c.Fit) (e : c.level_count = 0) : c.stacked = [] := by simp [stacked, e]

end NodeChain

open NodeChain in
/-- the calls on the array and on the stack -/
theorem run_stack (ops : List ChainOp) : ∀ {c : NodeChain} {first : Ptr}, c.Fit → c.nodes[0]? = some first →
    ChainOp.run c ops = ChainOp.stack c.stacked first ops := by
  induction ops with
  | nil => intro c first _ _; rfl
  | cons op ops ih =>
    intro c first h h0
    cases op with
    | push p =>
      simp only [ChainOp.run, ChainOp.stack, ChainOp.call, h.length]
      by_cases hl : c.level_count < 128
      · obtain ⟨c', e, hf, es, el, -, -, en⟩ := push_ok h hl p
        rw [if_pos hl, e]
        simp only [Res.bind_ok, Res.pure_eq]
        have h1 : c'.nodes[0]? = some (if c.stacked = [] then p else first) := by
          rw [en]
          by_cases hz : c.level_count = 0
          · rw [hz, stacked_nil h hz]; simp [h.size]
          · rw [List.getElem?_set_ne (by omega), h0, if_neg]
            intro e2
            have := h.length
            rw [e2] at this; exact hz this.symm
        rw [ih hf h1, es]
      · rw [if_neg hl, push_panic hl]; rfl
    | pop =>
      simp only [ChainOp.run, ChainOp.stack, ChainOp.call]
      by_cases hl : 0 < c.level_count
      · obtain ⟨p, e, e1, e2⟩ := idx_stacked h hl
        have ep : c.pop = .ok ({ c with level_count := c.level_count - 1 }, p) := by
          unfold NodeChain.pop; rw [assertR_bind_ok hl, e]; rfl
        have hf : NodeChain.Fit { c with level_count := c.level_count - 1 } := ⟨h.size, by have := h.count; simp only; omega⟩
        have := ih hf h0
        rw [ep, e1]
        simp only [Res.bind_ok, Res.pure_eq]
        rw [this]
        simp only [stacked]
        rw [show List.take (c.level_count - 1) c.nodes = c.stacked.dropLast from e2]
        rfl
      · have ep : c.pop = .panic := by unfold NodeChain.pop assertR; rw [if_neg hl]; rfl
        rw [ep, stacked_nil h (by omega)]; rfl
    | top =>
      simp only [ChainOp.run, ChainOp.stack, ChainOp.call]
      by_cases hl : 0 < c.level_count
      · obtain ⟨p, e, e1, -⟩ := idx_stacked h hl
        have ep : c.top = .ok p := by unfold NodeChain.top; rw [csub_ok (by omega), Res.bind_ok, e]
        rw [ep, e1]
        simp only [Res.bind_ok, Res.pure_eq]
        rw [ih h h0]
      · have ep : c.top = .panic := by unfold NodeChain.top csub; rw [if_neg (by omega)]; rfl
        rw [ep, stacked_nil h (by omega)]; rfl
    | bottom =>
      simp only [ChainOp.run, ChainOp.stack, ChainOp.call]
      rw [show c.bottom = .ok first from idx_ok h0]
      simp only [Res.bind_ok, Res.pure_eq]
      rw [ih h h0]

/-! ## the name of a node below the chain -/

theorem chainNames_length {s : Dom T} {ps : List Ptr} {ns : List LabelSequence} (h : chainNames s ps = .ok ns) : ns.length = ps.length := by
  induction ps generalizing ns with
  | nil => cases h; rfl
  | cons p ps ih =>
    rw [chainNames] at h
    obtain ⟨n, -, h⟩ := Res.bind_eq_ok.1 h
    obtain ⟨ms, hm, h⟩ := Res.bind_eq_ok.1 h
    cases h
    simp [ih hm]

theorem fillNames_eq (s : Dom T) {c : NodeChain} (hc : c.Fit) (k : Nat) : ∀ (i : Nat) (names : List LabelSequence), i + k = c.level_count → names.length = 128 →
    NodeChain.fillNames s c k i names = (do
      let ns ← chainNames s (c.nodes.take k).reverse
      pure (names.take i ++ ns ++ names.drop (i + k))) := by
  induction k with
  | zero =>
    intro i names _ hn
    simp [NodeChain.fillNames, chainNames]
  | succ k ih =>
    intro i names hi hn
    have h1 := hc.size
    have h2 := hc.count
    have hk : k < c.nodes.length := by omega
    have e1 : c.level_count - i - 1 = k := by omega
    rw [NodeChain.fillNames, e1, idx_of_lt hk, Res.bind_ok]
    have e2 : (c.nodes.take (k + 1)).reverse = c.nodes[k] :: (c.nodes.take k).reverse := by
      rw [List.take_succ, List.getElem?_eq_getElem hk]; simp
    rw [e2, chainNames]
    cases hl : s.look c.nodes[k] with
    | err => rfl
    | panic => rfl
    | ok n =>
      rw [Res.bind_ok, Res.bind_ok, ih (i + 1) _ (by omega) (by simpa using hn)]
      cases hm : chainNames s (c.nodes.take k).reverse with
      | err => rfl
      | panic => rfl
      | ok ns =>
        simp only [Res.bind_ok, Res.pure_eq, Res.ok.injEq]
        have e3 : (names.set i n.name).take (i + 1) = names.take i ++ [n.name] := by
          rw [List.take_succ, List.take_set_of_le (Nat.le_refl _)]
          simp [show i < names.length by omega]
        have e4 : (names.set i n.name).drop (i + 1 + k) = names.drop (i + (k + 1)) := by
          rw [List.drop_set_of_lt (by omega)]
          congr 1; omega
        rw [e3, e4]; simp

theorem absolute_eq (s : Dom T) {c : NodeChain} (hc : c.Fit) (child : LabelSequence) : c.get_absolute_name s child = s.get_absolute_name c.live child := by
  unfold NodeChain.get_absolute_name Dom.get_absolute_name
  have h1 := hc.size
  have h2 := hc.count
  by_cases hz : c.level_count = 0
  · rw [if_pos hz]
    simp only [NodeChain.live, NodeChain.stacked_nil hc hz, List.reverse_nil, chainNames, Res.bind_ok, Res.pure_eq]
    cases child.concat_all [] <;> rfl
  · rw [if_neg hz]
    have hk : c.level_count - 1 < c.nodes.length := by omega
    rw [idx_of_lt hk, Res.bind_ok]
    have e2 : c.live.nodes.reverse = c.nodes[c.level_count - 1] :: (c.nodes.take (c.level_count - 1)).reverse := by
      have : c.live.nodes = c.nodes.take (c.level_count - 1 + 1) := by
        simp only [NodeChain.live, NodeChain.stacked]; congr 1; omega
      rw [this, List.take_succ, List.getElem?_eq_getElem hk]; simp
    rw [e2, chainNames]
    cases hl : s.look c.nodes[c.level_count - 1] with
    | err => rfl
    | panic => rfl
    | ok n =>
      rw [Res.bind_ok, Res.bind_ok, fillNames_eq s hc _ 1 _ (by omega) (by simp)]
      cases hm : chainNames s (c.nodes.take (c.level_count - 1)).reverse with
      | err => rfl
      | panic => rfl
      | ok ns =>
        have hlen := chainNames_length hm
        simp only [List.length_reverse, List.length_take] at hlen
        simp only [Res.bind_ok, Res.pure_eq]
        have e5 : (List.replicate 128 n.name).take 1 = [n.name] := by rfl
        rw [e5, slice_ok (Nat.zero_le _) (by simp; omega)]
        simp only [Res.bind_ok, List.drop_zero, Nat.sub_zero]
        have e6 : List.take c.level_count ([n.name] ++ ns ++ List.drop (1 + (c.level_count - 1)) (List.replicate 128 n.name)) = n.name :: ns := by
          rw [List.take_append_of_le_length (by simp; omega), List.take_of_length_le (by simp; omega)]; rfl
        rw [e6]
        cases child.concat_all (n.name :: ns) <;> rfl

/-! ## searches -/

/-- the same outcome, of the array and of the stack -/
def SameEnd {P : Type} : Res (FindResult × NodeChain × P) → Res (FindResult × Chain × P) → Prop
  | .ok (r, c, p), .ok (r', c', p') => r = r' ∧ c.Fit ∧ c.live = c' ∧ p = p'
  | .err, .err => True
  | .panic, .panic => True
  | _, _ => False

theorem push_same {P : Type} {c : NodeChain} (h : c.Fit) (p : Ptr) {f : NodeChain → Res (FindResult × NodeChain × P)} {g : Chain → Res (FindResult × Chain × P)}
    (hf : ∀ c' : NodeChain, c'.Fit → SameEnd (f c') (g c'.live)) : SameEnd (c.push p >>= f) (c.live.push p >>= g) := by
  by_cases hl : c.level_count < 128
  · obtain ⟨c', e, h1, h2, h3, h4, h5, -⟩ := NodeChain.push_ok h hl p
    have e2 : c.live.push p = .ok c'.live := by
      unfold Chain.push
      rw [assertR_bind_ok (show c.live.nodes.length < 128 by rw [show c.live.nodes = c.stacked from rfl, h.length]; exact hl)]
      simp only [NodeChain.live, h2, h4, h5, Res.pure_eq]
    rw [e, e2]
    exact hf c' h1
  · have e2 : c.live.push p = .panic := by
      unfold Chain.push assertR
      rw [if_neg (show ¬ c.live.nodes.length < 128 by rw [show c.live.nodes = c.stacked from rfl, h.length]; exact hl)]; rfl
    rw [NodeChain.push_panic hl, e2]
    exact trivial

theorem callback_eq {P : Type} (s : Dom T) (cb : Option (Ptr → Name → P → Bool × P)) {c : NodeChain} (h : c.Fit) (p : Ptr) (n : Node T) (x : P) :
    s.callbackA cb c p n x = s.callback cb c.live p n x := by
  unfold callbackA callback
  split
  · cases cb with
    | none => rfl
    | some f => simp only [absolute_eq s h]
  · rfl

theorem findLoop_same {P : Type} (m : Build) (s : Dom T) (cb : Option (Ptr → Name → P → Bool × P)) (fuel : Nat) :
    ∀ (node : Ptr) (slice : LabelSlice) (r : FindResult) (c : NodeChain) (p : P), c.Fit →
      SameEnd (findLoopA m s cb fuel node slice r c p) (findLoop m s cb fuel node slice r c.live p) := by
  induction fuel with
  | zero => intro _ _ _ _ _ _; exact trivial
  | succ fuel ih =>
    intro node slice r c p h
    rw [findLoopA, findLoop]
    by_cases h0 : node = 0
    · rw [if_pos h0, if_pos h0]; exact ⟨rfl, h, rfl, rfl⟩
    rw [if_neg h0, if_neg h0]
    cases h1 : s.look node with
    | err => exact trivial
    | panic => exact trivial
    | ok n =>
      rw [Res.bind_ok, Res.bind_ok]
      cases h2 : LabelSlice.from_label_sequence n.name with
      | err => exact trivial
      | panic => exact trivial
      | ok cur =>
        rw [Res.bind_ok, Res.bind_ok]
        cases h3 : slice.compare m cur false with
        | err => exact trivial
        | panic => exact trivial
        | ok cm =>
          rw [Res.bind_ok, Res.bind_ok]
          have hf : NodeChain.Fit { c with last_compared := node, last_compared_result := cm } := ⟨h.size, h.count⟩
          cases h4 : cm.relation <;> simp only
          · exact ⟨rfl, hf, rfl, rfl⟩
          · rw [callback_eq s cb hf]
            change SameEnd _ (s.callback cb (NodeChain.live { c with last_compared := node, last_compared_result := cm }) node n p >>= _)
            cases h5 : s.callback cb (NodeChain.live { c with last_compared := node, last_compared_result := cm }) node n p with
            | err => exact trivial
            | panic => exact trivial
            | ok y =>
              obtain ⟨stop, q⟩ := y
              rw [Res.bind_ok, Res.bind_ok]
              cases stop with
              | true => exact ⟨rfl, hf, rfl, rfl⟩
              | false =>
                simp only [Bool.false_eq_true, if_false]
                refine push_same hf node fun c' hc' => ?_
                cases h6 : slice.strip_right cm.common_label_count with
                | err => exact trivial
                | panic => exact trivial
                | ok sl => exact ih _ _ _ _ _ hc'
          · refine push_same hf node fun c' hc' => ⟨rfl, hc', rfl, rfl⟩
          · exact ⟨rfl, hf, rfl, rfl⟩
          · exact ih _ _ _ _ _ hf

theorem search_same {P : Type} (m : Build) (s : Dom T) (n : Name) (cb : Option (Ptr → Name → P → Bool × P)) {c : NodeChain} (h : c.Fit) (p : P) :
    SameEnd (searchA m s n c cb p) (find_node_ext m s n c.live cb p) := by
  unfold searchA find_node_ext
  cases LabelSlice.from_name n with
  | err => exact trivial
  | panic => exact trivial
  | ok sl => exact findLoop_same m s cb _ _ _ _ _ _ h

/-! ## a search without callback on a chain that holds nodes already -/

/-- the chain `c` of a search that found the nodes `pre` and the last comparison `last` on its chain -/
def Chain.behind (pre : List Ptr) (last : Ptr × NameComparisonResult) (c : Chain) : Chain :=
  ⟨pre ++ c.nodes, if c.last_compared = 0 then last.1 else c.last_compared, if c.last_compared = 0 then last.2 else c.last_compared_result⟩

/-- what the search does to a chain with the nodes `pre`, when on a fresh one it ends with `x` -/
def Behind {P : Type} (pre : List Ptr) (last : Ptr × NameComparisonResult) (x y : Res (FindResult × Chain × P)) : Prop :=
  match x with
  | .ok (r, c0, p) => y = if pre.length + c0.nodes.length ≤ 128 then .ok (r, c0.behind pre last, p) else .panic
  | .err => y = .err ∨ y = .panic
  | .panic => y = .panic

theorem findLoop_grows {P : Type} (m : Build) (s : Dom T) (fuel : Nat) : ∀ (node : Ptr) (slice : LabelSlice) (r : FindResult) (c : Chain) (p : P) (r' : FindResult) (c' : Chain) (p' : P),
    findLoop m s none fuel node slice r c p = .ok (r', c', p') → c.nodes.length ≤ c'.nodes.length ∧ (c.last_compared ≠ 0 → c'.last_compared ≠ 0) := by
  induction fuel with
  | zero => intro _ _ _ _ _ _ _ _ h; cases h
  | succ fuel ih =>
    intro node slice r c p r' c' p' h
    rw [findLoop] at h
    by_cases h0 : node = 0
    · rw [if_pos h0] at h; cases h; exact ⟨Nat.le_refl _, id⟩
    rw [if_neg h0] at h
    obtain ⟨n, -, h⟩ := Res.bind_eq_ok.1 h
    obtain ⟨cur, -, h⟩ := Res.bind_eq_ok.1 h
    obtain ⟨cm, -, h⟩ := Res.bind_eq_ok.1 h
    have hcb : ∀ ch : Chain, s.callback (none : Option (Ptr → Name → P → Bool × P)) ch node n p = .ok (false, p) := by
      intro ch; unfold callback; split <;> rfl
    have hpush : ∀ (ch ch' : Chain) , ch.push node = .ok ch' → ch' = { ch with nodes := ch.nodes ++ [node] } := by
      intro ch ch' e
      unfold Chain.push at e
      obtain ⟨_, -, e⟩ := Res.bind_eq_ok.1 e
      cases e; rfl
    cases h4 : cm.relation <;> simp only [h4] at h
    · cases h; exact ⟨Nat.le_refl _, fun _ => h0⟩
    · rw [hcb, Res.bind_ok] at h
      simp only [Bool.false_eq_true, if_false] at h
      obtain ⟨ch, e1, h⟩ := Res.bind_eq_ok.1 h
      obtain ⟨sl, -, h⟩ := Res.bind_eq_ok.1 h
      have e2 := hpush _ _ e1
      obtain ⟨g1, g2⟩ := ih _ _ _ _ _ _ _ _ h
      rw [e2] at g1 g2
      simp only [List.length_append] at g1
      exact ⟨by omega, fun _ => g2 h0⟩
    · obtain ⟨ch, e1, h⟩ := Res.bind_eq_ok.1 h
      have e2 := hpush _ _ e1
      cases h
      rw [e2]
      exact ⟨by simp, fun _ => h0⟩
    · cases h; exact ⟨Nat.le_refl _, fun _ => h0⟩
    · obtain ⟨g1, g2⟩ := ih _ _ _ _ _ _ _ _ h
      exact ⟨g1, fun _ => g2 h0⟩

theorem push_behind {P : Type} {pre : List Ptr} {last : Ptr × NameComparisonResult} {c : Chain} (hl : pre.length + c.nodes.length ≤ 128) (p : Ptr)
    {f : Chain → Res (FindResult × Chain × P)} (hf : ∀ c' : Chain, pre.length + c'.nodes.length ≤ 128 → Behind pre last (f c') (f (c'.behind pre last)))
    (hg : ∀ (c' : Chain) r c0 q, f c' = .ok (r, c0, q) → c'.nodes.length ≤ c0.nodes.length) :
    Behind pre last (c.push p >>= f) ((c.behind pre last).push p >>= f) := by
  by_cases hlt : pre.length + c.nodes.length < 128
  · have e1 : c.push p = .ok { c with nodes := c.nodes ++ [p] } := by
      unfold Chain.push; rw [assertR_bind_ok (by omega)]; rfl
    have e2 : (c.behind pre last).push p = .ok (Chain.behind pre last { c with nodes := c.nodes ++ [p] }) := by
      unfold Chain.push; rw [assertR_bind_ok (by simp only [Chain.behind, List.length_append]; omega)]
      simp [Chain.behind]
    rw [e1, e2]
    exact hf _ (by simp only [List.length_append, List.length_singleton]; omega)
  · have e2 : (c.behind pre last).push p = .panic := by
      unfold Chain.push assertR
      rw [if_neg (by simp only [Chain.behind, List.length_append]; omega)]; rfl
    rw [e2]
    by_cases h3 : c.nodes.length < 128
    · have e1 : c.push p = .ok { c with nodes := c.nodes ++ [p] } := by
        unfold Chain.push; rw [assertR_bind_ok h3]; rfl
      rw [e1, Res.bind_ok]
      cases h4 : f { c with nodes := c.nodes ++ [p] } with
      | err => exact Or.inr rfl
      | panic => rfl
      | ok x =>
        obtain ⟨r, c0, q⟩ := x
        have := hg _ _ _ _ h4
        simp only [List.length_append, List.length_singleton] at this
        simp only [Behind]
        rw [if_neg (by omega)]; rfl
    · have e1 : c.push p = .panic := by
        unfold Chain.push assertR; rw [if_neg h3]; rfl
      rw [e1]; rfl

theorem findLoop_behind {P : Type} (m : Build) (s : Dom T) (pre : List Ptr) (last : Ptr × NameComparisonResult) (fuel : Nat) :
    ∀ (node : Ptr) (slice : LabelSlice) (r : FindResult) (c : Chain) (p : P), pre.length + c.nodes.length ≤ 128 →
      Behind pre last (findLoop m s none fuel node slice r c p) (findLoop m s none fuel node slice r (c.behind pre last) p) := by
  induction fuel with
  | zero => intro _ _ _ _ _ _; rfl
  | succ fuel ih =>
    intro node slice r c p hl
    rw [findLoop, findLoop]
    by_cases h0 : node = 0
    · rw [if_pos h0, if_pos h0]; simp only [Behind]; rw [if_pos hl]
    rw [if_neg h0, if_neg h0]
    cases h1 : s.look node with
    | err => exact Or.inl rfl
    | panic => rfl
    | ok n =>
      rw [Res.bind_ok, Res.bind_ok]
      cases h2 : LabelSlice.from_label_sequence n.name with
      | err => exact Or.inl rfl
      | panic => rfl
      | ok cur =>
        rw [Res.bind_ok, Res.bind_ok]
        cases h3 : slice.compare m cur false with
        | err => exact Or.inl rfl
        | panic => rfl
        | ok cm =>
          rw [Res.bind_ok, Res.bind_ok]
          have eb : ({ c.behind pre last with last_compared := node, last_compared_result := cm } : Chain) =
              Chain.behind pre last { c with last_compared := node, last_compared_result := cm } := by
            simp [Chain.behind, h0]
          have hcb : ∀ ch : Chain, s.callback (none : Option (Ptr → Name → P → Bool × P)) ch node n p = .ok (false, p) := by
            intro ch; unfold callback; split <;> rfl
          dsimp only
          rw [eb]
          generalize hc1 : ({ c with last_compared := node, last_compared_result := cm } : Chain) = c1
          have hl1 : pre.length + c1.nodes.length ≤ 128 := by rw [← hc1]; exact hl
          cases h4 : cm.relation <;> simp only
          · simp only [Behind, Res.pure_eq]; rw [if_pos hl1]
          · rw [hcb, hcb, Res.bind_ok, Res.bind_ok]
            simp only [Bool.false_eq_true, if_false]
            refine push_behind hl1 node (fun c' hc' => ?_) (fun c' r c0 q e => ?_)
            · cases h6 : slice.strip_right cm.common_label_count with
              | err => exact Or.inl rfl
              | panic => rfl
              | ok sl => exact ih _ _ _ _ _ hc'
            · obtain ⟨sl, -, e⟩ := Res.bind_eq_ok.1 e
              exact (findLoop_grows m s _ _ _ _ _ _ _ _ _ e).1
          · refine push_behind hl1 node (fun c' hc' => ?_) (fun c' r c0 q e => ?_)
            · simp only [Behind, Res.pure_eq]; rw [if_pos hc']
            · cases e; exact Nat.le_refl _
          · simp only [Behind, Res.pure_eq]; rw [if_pos hl1]
          · exact ih _ _ _ _ _ hl1

/-- a search without callback on a chain with the nodes `pre` -/
theorem search_behind {P : Type} (m : Build) (s : Dom T) (n : Name) (c : Chain) (hc : c.nodes.length ≤ 128) (p : P) :
    Behind c.nodes (c.last_compared, c.last_compared_result) (find_node_ext m s n Chain.new none p) (find_node_ext m s n c none p) := by
  unfold find_node_ext
  cases LabelSlice.from_name n with
  | err => exact Or.inl rfl
  | panic => rfl
  | ok sl =>
    have := findLoop_behind m s c.nodes (c.last_compared, c.last_compared_result) (s.next + 1) s.root sl ⟨0, .NotFound⟩ Chain.new p (by simpa [Chain.new] using hc)
    have e : Chain.behind c.nodes (c.last_compared, c.last_compared_result) Chain.new = c := by simp [Chain.behind, Chain.new]
    rw [e] at this
    exact this

end Dom
end R53
