import Verif.Proofs.TreeSearch
import Verif.Proofs.TreeStep
/-!
# Search for a name of any octets in a tree of names that compare without overflow

In a release build a label that is none of those of the tree is only ever "different": the search may turn to either side, but finds nothing in that level,
and there is nothing to find.
-/
namespace R53
open LabelSlice (relSpec)

theorem near_release (a b : Label) (h : Near a b) : labelOrder (diffOrder false) a b = some (cmpSigned a b) := by
  induction a generalizing b with
  | nil => cases b <;> rfl
  | cons x a ih =>
    cases b with
    | nil => rfl
    | cons y b =>
      obtain ⟨h1, h2⟩ := near_cons.1 h
      have e1 : diffOrder false (lowerByte x) (lowerByte y) = some (compare (signed (lowerByte x)) (signed (lowerByte y))) := by unfold diffOrder; rw [if_pos h1]
      rw [labelOrder, e1, cmpSigned]
      cases ho : compare (signed (lowerByte x)) (signed (lowerByte y)) with
      | eq => simp only [Ordering.then]; exact ih b (h2 (signed_inj ((compare_int_eq _ _).1 ho)))
      | lt => rfl
      | gt => rfl

/-- the sign of the comparison depends on the last labels alone if these are different and near -/
theorem relSpec_last (x y : Label) (as bs : List Label) (n : Nat) (hla : (x :: as).length ≤ 128) (hlb : (y :: bs).length ≤ 128)
    (h63a : ∀ l ∈ x :: as, l.length ≤ 63) (h63b : ∀ l ∈ y :: bs, l.length ≤ 63) {r : NameComparisonResult}
    (h : relSpec .release (x :: as) (y :: bs) n = .ok r) (hxy : lowerLabel x ≠ lowerLabel y) (hn : Near x y) :
    r.order < 0 ∧ cmpSigned x y = .lt ∨ ¬ r.order < 0 ∧ cmpSigned x y = .gt := by
  have hs := list_spec .release (x :: as) (y :: bs) n hla hlb (.inl ⟨by simp, by simp⟩) h63a h63b
  rw [listOrder, show checks .release = false from rfl, near_release x y hn] at hs
  have hne : cmpSigned x y ≠ .eq := fun e => hxy ((cmpSigned_eq_iff x y).1 e)
  cases hc : cmpSigned x y with
  | eq => exact absurd hc hne
  | lt =>
    rw [hc] at hs
    obtain ⟨r', h1, h2⟩ := hs
    rw [h] at h1; cases h1
    left
    refine ⟨?_, rfl⟩
    unfold signOf at h2
    split at h2
    · assumption
    · split at h2 <;> simp at h2
  | gt =>
    rw [hc] at hs
    obtain ⟨r', h1, h2⟩ := hs
    rw [h] at h1; cases h1
    right
    refine ⟨?_, rfl⟩
    unfold signOf at h2
    split at h2
    · simp at h2
    · assumption

theorem step_wild {G : Label → Prop} (hG : Gentle G) {as bs : List Label} (h1 : as ≠ []) (h2 : bs ≠ []) (hla : as.length ≤ 128) (hlb : bs.length ≤ 128)
    (h63a : ∀ l ∈ as, l.length ≤ 63) (h63b : ∀ l ∈ bs, l.length ≤ 63) (hb : G (lastL bs)) :
    ∃ c, relSpec .release as.reverse bs.reverse 0 = .ok c ∧ (G (lastL as) → Step as bs c) ∧ (¬ G (lastL as) → c.relation = .None) := by
  obtain ⟨c, hc, hs⟩ := Dom.Free.step_cases .release h1 h2 hla hlb h63a h63b (.inl rfl) (.inl rfl)
  refine ⟨c, hc, fun ha => ?_, fun ha => ?_⟩
  · cases hs with
    | equal h e => exact .equal h e
    | none h e =>
      refine .none h ?_
      rw [lastL_rev, lastL_rev] at e ⊢
      rw [lastL_rev] at ha hb
      obtain ⟨u, x, eu⟩ := List.exists_cons_of_ne_nil (show as.reverse ≠ [] by simpa using h1)
      obtain ⟨v, y, ev⟩ := List.exists_cons_of_ne_nil (show bs.reverse ≠ [] by simpa using h2)
      rw [eu, ev] at e hc ⊢
      rw [eu] at ha
      rw [ev] at hb
      refine relSpec_last u v x y 0 ?_ ?_ ?_ ?_ hc e (hG.near ha hb)
      · rw [← eu]; simpa using hla
      · rw [← ev]; simpa using hlb
      · rw [← eu]; simpa using h63a
      · rw [← ev]; simpa using h63b
    | sub a1 a2 h hc e h1 h2 => exact .sub a1 a2 h hc e h1 h2
    | split a1 a2 b1 b2 h e e' h1 h2 hc h3 h4 => exact .split a1 a2 b1 b2 h e e' h1 h2 hc h3 h4
  · cases hs with
    | equal h e => exact absurd (hG.case (lastL_lower e).symm hb) ha
    | none h e => exact h
    | sub a1 a2 h hc e h3 h4 =>
      refine absurd (hG.case ?_ hb) ha
      have ha2 : a2 ≠ [] := by
        intro e2; subst e2
        have := lowerName_ne h4
        exact h2 (List.length_eq_zero_iff.1 (by simpa using this.symm))
      rw [e, lastL_append ha2, lastL_lower h4]
    | split a1 a2 b1 b2 h e e' h3 h4 hc h5 h6 =>
      refine absurd (hG.case ?_ hb) ha
      have ha2 : a2 ≠ [] := by
        intro e2; subst e2
        have := lowerName_ne h5
        exact h4 (List.length_eq_zero_iff.1 (by simpa using this.symm))
      rw [e, e', lastL_append ha2, lastL_append h4, lastL_lower h5]

namespace Dom
variable {T P : Type}

section
variable {s : Dom T} {g : Nat × Nat} {lc : List (LF T)} {t : Tr T} {i : Info T} {l d r : Tr T} {rest : List (UF T)}
variable {tgt full as post : List Label} {slice : LabelSlice}

theorem lastL_mem {ls : List Label} (h : ls ≠ []) : lastL ls ∈ ls := by
  obtain ⟨a, x, rfl⟩ : ∃ a x, ls = a ++ [x] := ⟨ls.dropLast, ls.getLast h, (List.dropLast_concat_getLast h).symm⟩
  rw [lastL_concat]; simp

/-- one comparison of the search -/
theorem round_wild {G : Subtype Gentle} (h : W s g rest lc (.node i l d r)) (hne : i.labels ≠ []) (hl : LabsOK (some G) i.labels) (has : SeqOK as)
    (hlen : as.length ≤ 128) (hv : LabelSlice.View slice [] as post) :
    ∃ cur n c, s.heap i.addr = some n ∧ n = Info.node i lc.isEmpty l.ptr r.ptr (lptr (slotUp rest) lc) d.ptr ∧
      LabelSlice.from_label_sequence n.name = .ok cur ∧ slice.compare .release cur false = .ok c ∧ (G.1 (lastL as) → R53.Step as i.labels c) ∧
      (¬ G.1 (lastL as) → c.relation = .None) := by
  obtain ⟨cur, e1, v1⟩ := LabelSlice.view_of_seq hl.seq hne
  obtain ⟨c, e2, h1, h2⟩ := step_wild G.2 hv.nonempty hne hlen hl.len has.1 hl.seq.1 (hl.asc G rfl _ (lastL_mem hne))
  exact ⟨cur, _, c, (Z.focus h).heap 0 rfl, by rw [slotOf_up], e1, by rw [LabelSlice.compare_view .release hv v1]; exact e2, h1, h2⟩

/-- a label that is none of the tree: the search goes through the level and finds nothing -/
theorem findLoop_lost {G : Subtype Gentle} {cb : Option (Ptr → Name → P → Bool × P)} (hG : ¬ G.1 (lastL as)) (has : SeqOK as) (hlen : as.length ≤ 128)
    (hv : LabelSlice.View slice [] as post) (fuel : Nat) :
    ∀ {lc : List (LF T)} {t : Tr T} {c : Chain} {p : P},
    W s g rest lc t → OK (plugU (plug t lc) rest) → NamesOK (some G) (plugU (plug t lc) rest) → c.nodes = addrs (path rest) → t.size + 1 ≤ fuel →
    ∃ c', findLoop .release s cb fuel t.ptr slice (resOf rest) c p = .ok (resOf rest, c', p) ∧ c'.nodes = addrs (path rest) := by
  induction fuel with
  | zero => intro _ _ _ _ _ _ _ _ hf; omega
  | succ fuel ih =>
    intro lc t c p h hok hn hc hf
    cases t with
    | nil => exact ⟨c, by unfold findLoop; rw [if_pos (show (Tr.nil : Tr T).ptr = 0 from rfl)], hc⟩
    | node i l d r =>
      have hi := (OK_node (OK_plugU hok).1).1
      simp only [Tr.size] at hf
      obtain ⟨cur, n, cm, e1, e2, e3, e4, -, hs⟩ := round_wild h hi (node_labs hn) has hlen hv
      have e5 : s.look i.addr = .ok n := by unfold look; rw [e1]
      show ∃ c', findLoop .release s cb (fuel + 1) i.addr slice (resOf rest) c p = _ ∧ _
      unfold findLoop
      rw [if_neg (Z.nz h), e5, Res.bind_ok, e3, Res.bind_ok, e4, Res.bind_ok]
      simp only [hs hG]
      subst e2
      by_cases ho : cm.order < 0
      · rw [if_pos ho]
        exact ih (lc := .L i d r :: lc) (t := l) (Z.left_down.1 h) hok hn hc (by omega)
      · rw [if_neg ho]
        exact ih (lc := .R i l d :: lc) (t := r) (Z.right_down.1 h) hok hn hc (by omega)

theorem ent_bag {suf : List Label} {es : List (Info T × Tr T)} {e : Info T × Tr T} (h : e ∈ es) : e.1.entry suf ∈ bagE suf es := by
  induction es with
  | nil => simp at h
  | cons x es ih =>
    simp only [bagE_cons, Multiset.mem_add, Multiset.mem_singleton]
    rcases List.mem_cons.1 h with rfl | h
    · exact .inl (.inl rfl)
    · exact .inr (ih h)

/-- and there is nothing to find -/
theorem lost_all {G : Subtype Gentle} (hG : ¬ G.1 (lastL as)) (ha : At tgt as rest [] t) (hn : NamesOK (some G) (plugU t rest)) :
    ∀ x ∈ bag [] (plugU t rest), IsSubdomain tgt x.name → x ∈ path rest := by
  intro x hx hs
  rw [bag_plugU, Multiset.mem_add] at hx
  rcases hx with hx | hx
  · exfalso
    rw [bag_ents] at hx
    have hg := ha.level.2
    refine far ha.name (fun e1 he1 => ?_) hx hs
    have hne := ((Tr.SGood_iff _).1 hg e1 he1).1
    refine ⟨hne, fun e => hG (G.2.case e ?_)⟩
    obtain ⟨ls, -, hA, e2⟩ := hn (e1.1.entry (sufU rest)) (by rw [bag_plugU, Multiset.mem_add, bag_ents]; exact .inl (ent_bag he1))
    have hm : lastL e1.1.labels ∈ e1.1.labels ++ sufU rest := List.mem_append.2 (.inl (lastL_mem hne))
    rw [show e1.1.labels ++ sufU rest = ls ++ [[]] from e2, List.mem_append] at hm
    rcases hm with hm | hm
    · exact hA G rfl _ hm
    · simp only [List.mem_singleton] at hm; rw [hm]; exact G.2.root
  · exact ha.above x hx hs

/-- the search in a release build, for a name of any octets -/
theorem findLoop_wild {G : Subtype Gentle} {cb : Option (Ptr → Name → P → Bool × P)} (htgt : tgt.length ≤ 128) (fuel : Nat) :
    ∀ {rest : List (UF T)} {lc : List (LF T)} {t : Tr T} {as post : List Label} {slice : LabelSlice} {c : Chain} {p : P},
    W s g rest lc t → At tgt as rest lc t → NamesOK (some G) (plugU (plug t lc) rest) → SeqOK as → as.length ≤ 128 → G.1 (lastL as) ∨ lc = [] →
    LabelSlice.View slice [] as post → c.nodes = addrs (path rest) → t.size + 1 ≤ fuel →
    (∃ res c' p', findLoop .release s cb fuel t.ptr slice (resOf rest) c p = .ok (res, c', p') ∧ FindPost s g tgt (plugU (plug t lc) rest) cb rest p res c' p') ∨
    (findLoop .release s cb fuel t.ptr slice (resOf rest) c p = .panic ∧ ∃ rest' u d as L, FindCrash s g tgt (plugU (plug t lc) rest) cb rest p rest' u d as L) := by
  induction fuel with
  | zero => intro _ _ _ _ _ _ _ _ _ _ _ _ _ _ _ _ hf; omega
  | succ fuel ih =>
    intro rest lc t as post slice c p h ha hn has hlen hk hv hc hf
    by_cases hgood : G.1 (lastL as)
    case neg =>
      have hlc := hk.resolve_left hgood
      subst hlc
      obtain ⟨c', e, hc'⟩ := findLoop_lost (cb := cb) (p := p) hgood has hlen hv (fuel + 1) h ha.ok hn hc hf
      exact .inl ⟨_, _, _, e, .miss rest [] t as [] h ha rfl (by simp) rfl (by simp) hc' (lost_all hgood ha hn)⟩
    cases t with
    | nil =>
      refine .inl ⟨_, _, _, by unfold findLoop; rw [if_pos (show (Tr.nil : Tr T).ptr = 0 from rfl)], ?_⟩
      exact .miss rest lc .nil as [] h ha rfl (by simp) rfl (by simp) hc ha.free
    | node i l d r =>
      have hi := (OK_node ha.level).1
      simp only [Tr.size] at hf
      obtain ⟨cur, n, cm, e1, e2, e3, e4, hsg, -⟩ := round_wild h hi (node_labs hn) has hlen hv
      have hs := hsg hgood
      have e5 : s.look i.addr = .ok n := by unfold look; rw [e1]
      have hstep : findLoop .release s cb (fuel + 1) i.addr slice (resOf rest) c p =
          (match cm.relation with
          | .Equal => do
            let c' ← ({ c with last_compared := i.addr, last_compared_result := cm } : Chain).push i.addr
            pure (⟨i.addr, .ExactMatch⟩, c', p)
          | .None => findLoop .release s cb fuel (if cm.order < 0 then n.left else n.right) slice (resOf rest) { c with last_compared := i.addr, last_compared_result := cm } p
          | .SubDomain => do
            let (stop, p') ← s.callback cb { c with last_compared := i.addr, last_compared_result := cm } i.addr n p
            if stop then pure (⟨i.addr, .PartialMatch⟩, { c with last_compared := i.addr, last_compared_result := cm }, p')
            else do
              let c' ← ({ c with last_compared := i.addr, last_compared_result := cm } : Chain).push i.addr
              let slice ← slice.strip_right cm.common_label_count
              findLoop .release s cb fuel n.down slice ⟨i.addr, .PartialMatch⟩ c' p'
          | _ => pure (resOf rest, { c with last_compared := i.addr, last_compared_result := cm }, p)) := by
        conv_lhs => unfold findLoop
        rw [if_neg (Z.nz h), e5, Res.bind_ok, e3, Res.bind_ok, e4, Res.bind_ok]
        cases cm.relation <;> rfl
      show (∃ res c' p', findLoop .release s cb (fuel + 1) i.addr slice (resOf rest) c p = _ ∧ _) ∨ (findLoop .release s cb (fuel + 1) i.addr slice (resOf rest) c p = _ ∧ _)
      rw [hstep]
      clear hstep
      have hdep := ha.depth
      have hpush : ({ c with last_compared := i.addr, last_compared_result := cm } : Chain).push i.addr =
          .ok { c with last_compared := i.addr, last_compared_result := cm, nodes := c.nodes ++ [i.addr] } := by
        unfold Chain.push
        have : c.nodes.length < 128 := by rw [hc]; simp only [addrs, List.length_map, path_length]; omega
        rw [assertR, if_pos (by simpa using this)]; rfl
      generalize hcc : ({ c with last_compared := i.addr, last_compared_result := cm } : Chain) = c1 at *
      have hc1 : c1.nodes = addrs (path rest) := by rw [← hcc]; exact hc
      subst e2
      cases hs with
      | equal hr e =>
        rw [hr]
        simp only [hpush, Res.bind_ok]
        refine .inl ⟨_, _, _, rfl, ?_⟩
        refine .exact rest lc i l d r [] h rfl (by simp) rfl (by simp) (by simp [hc]) ?_ (ha.exact e)
        rw [ha.name, Name.lowerName_append, Name.lowerName_append, e]
      | none hr hcm =>
        rw [hr]
        rcases hcm with ⟨ho, hcm⟩ | ⟨ho, hcm⟩
        · simp only [ho, if_true]
          exact ih (rest := rest) (lc := .L i d r :: lc) (t := l) (Z.left_down.1 h) (ha.left hcm) hn has hlen (.inl hgood) hv hc1 (by omega)
        · simp only [ho, if_false]
          exact ih (rest := rest) (lc := .R i l d :: lc) (t := r) (Z.right_down.1 h) (ha.right hcm) hn has hlen (.inl hgood) hv hc1 (by omega)
      | sub a1 a2 hr hcm e h1 h2 =>
        rw [hr]
        subst e
        have w2 : W s g (⟨i, l, r, lc⟩ :: rest) [] d := W.down_iff.1 h
        have at2 := ha.down rfl h1 h2
        have hsl := at2.sealed
        rcases callback_spec (cb := cb) h ha.ok hn hc1 p with ⟨stop, q, ecb, hrun, hsafe⟩ | ⟨ecb, hc0, hon, hcr⟩
        case inr =>
          simp only [ecb, Res.bind_panic]
          exact .inr ⟨trivial, rest, ⟨i, l, r, lc⟩, d, a1, [], at2, rfl, by simp, rfl, hc0, hon, hsl.2 hcr⟩
        simp only [ecb, Res.bind_ok]
        have hsafe1 : cb ≠ none → ∀ x ∈ [i.entry (sufU rest)], x.cb = true → ¬ Sealed (plugU d (⟨i, l, r, lc⟩ :: rest)) x := by
          intro h0 x hx hxc
          simp only [List.mem_singleton] at hx
          subst hx
          exact fun hs => hsafe h0 hxc (hsl.1 hs)
        cases stop with
        | true =>
          refine .inl ⟨_, _, _, rfl, ?_⟩
          exact .stop rest ⟨i, l, r, lc⟩ d a1 [] w2 at2 rfl (by simp) (by simpa using hrun) hsafe1 hc1
        | false =>
          obtain ⟨s', e', v'⟩ := hv.strip_right h1
          have hlow := lowerName_ne h2
          rw [← hlow] at hcm
          simp only [Bool.false_eq_true, if_false, hpush, Res.bind_ok, hcm, e'] at hrun ⊢
          have hc2 : ({ c with last_compared := i.addr, last_compared_result := cm, nodes := c.nodes ++ [i.addr] } : Chain).nodes = addrs (path (⟨i, l, r, lc⟩ :: rest)) := by
            simp [path, addrs, hc, Info.entry]
          have hone : ∀ {L : List (Entry T)}, (cb ≠ none → ∀ x ∈ L, x.cb = true → ¬ Sealed (plugU d (⟨i, l, r, lc⟩ :: rest)) x) →
              cb ≠ none → ∀ x ∈ i.entry (sufU rest) :: L, x.cb = true → ¬ Sealed (plugU d (⟨i, l, r, lc⟩ :: rest)) x := by
            intro L hL h0 x hx
            rcases List.mem_cons.1 hx with rfl | hx
            · exact hsafe1 h0 _ (by simp)
            · exact hL h0 x hx
          rcases ih (rest := ⟨i, l, r, lc⟩ :: rest) (lc := []) (t := d) (p := q) w2 at2 hn (has.sublist (List.sublist_append_left _ _)) (by simp at hlen; omega) (.inr rfl) v' hc2 (by omega) with ⟨res, c', p', e6, hp⟩ | ⟨e6, hx⟩
          case inr =>
            obtain ⟨rest', u', d', as', L', hcrash⟩ := hx
            refine .inr ⟨e6, ⟨rest', u', d', as', i.entry (sufU rest) :: L', hcrash.at_, hcrash.whole, by rw [hcrash.pe]; simp [path], ?_, hcrash.given, hcrash.on, hcrash.bad⟩⟩
            rw [show i.entry (sufU rest) :: L' = [i.entry (sufU rest)] ++ L' from rfl, callbacks_append hrun]
            exact hcrash.cbs
          refine .inl ⟨res, c', p', e6, ?_⟩
          cases hp with
          | exact rest' lc' i' l' d' r' L w' whole pe cbs safe ch nm all =>
            exact .exact rest' lc' i' l' d' r' (i.entry (sufU rest) :: L) w' whole (by rw [pe]; simp [path]) (by
              rw [show i.entry (sufU rest) :: L = [i.entry (sufU rest)] ++ L from rfl, callbacks_append hrun]; exact cbs) (hone safe) ch nm all
          | miss rest' lc' t' as' L w' at' whole pe cbs safe ch all =>
            exact .miss rest' lc' t' as' (i.entry (sufU rest) :: L) w' at' whole (by rw [pe]; simp [path]) (by
              rw [show i.entry (sufU rest) :: L = [i.entry (sufU rest)] ++ L from rfl, callbacks_append hrun]; exact cbs) (hone safe) ch all
          | stop rest' u d' as' L w' at' whole pe cbs safe ch =>
            exact .stop rest' u d' as' (i.entry (sufU rest) :: L) w' at' whole (by rw [pe]; simp [path]) (by
              rw [List.cons_append, show i.entry (sufU rest) :: (L ++ [u.i.entry (sufU rest')]) = [i.entry (sufU rest)] ++ (L ++ [u.i.entry (sufU rest')]) from rfl,
                callbacks_append hrun]; exact cbs) (by have := hone safe; rw [← List.cons_append] at this; exact this) ch
      | split a1 a2 b1 b2 hr e e' h1 h2 hcm h3 h4 =>
        have hfin : (∃ res c' p', (pure (resOf rest, c1, p) : Res (FindResult × Chain × P)) = .ok (res, c', p') ∧
            FindPost s g tgt (plugU (plug (.node i l d r) lc) rest) cb rest p res c' p') ∨ ((pure (resOf rest, c1, p) : Res (FindResult × Chain × P)) = .panic ∧
            ∃ rest' u d' as' L, FindCrash s g tgt (plugU (plug (.node i l d r) lc) rest) cb rest p rest' u d' as' L) :=
          .inl ⟨_, _, _, rfl, .miss rest lc _ as [] h ha rfl (by simp) rfl (by simp) hc1 (ha.split e e' h1 h2 h3 h4)⟩
        rcases hr with ⟨hr, -⟩ | ⟨hr, -⟩
        · rw [hr]; exact hfin
        · rw [hr]; exact hfin


end
end Dom
end R53
