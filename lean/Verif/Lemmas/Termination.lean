import Verif.Lemmas.Iterate
/-
Why the iterators end: every round either marks a new cell offset of the file or shrinks the
stack.
-/
namespace Notatin
open Spec

mutual
/-- Number of nodes reachable through `deleted_keys`, the node itself included. -/
def Node.weight : Node → Nat
  | .mk _ _ ds => 1 + weightAll ds
/-- Sum of the weights. -/
def weightAll : List Node → Nat
  | [] => 0
  | n :: ns => n.weight + weightAll ns
end

theorem Node.weight_eq (n : Node) : n.weight = 1 + weightAll n.deletedKeys := by
  cases n; rw [Node.weight]; rfl

theorem weightAll_append (a b : List Node) : weightAll (a ++ b) = weightAll a + weightAll b := by
  induction a with
  | nil => simp [weightAll]
  | cons n ns ih => simp only [List.cons_append, weightAll, ih]; omega

theorem weightAll_reverse (a : List Node) : weightAll a.reverse = weightAll a := by
  induction a with
  | nil => rfl
  | cons n ns ih => simp only [List.reverse_cons, weightAll_append, weightAll, ih]; omega

theorem weightAll_inherit (s : Option FilterMatchState) (a : List Node) :
    weightAll (a.map (inheritFilterState s)) = weightAll a := by
  induction a with
  | nil => rfl
  | cons n ns ih =>
    simp only [List.map_cons, weightAll, ih]
    rw [Node.weight_eq, Node.weight_eq n]
    rfl

/-- A recovered key: not live, and all keys recorded below it neither. -/
inductive AllDel : Node → Prop where
  | mk (n : Node) : n.key.cellState ≠ .Allocated → (∀ d ∈ n.deletedKeys, AllDel d) → AllDel n

/-- All keys recorded as deleted in the state are recovered keys. -/
def StateDel (st : State) : Prop := ∀ p ds, st.deletedKeys p = some ds → ∀ d ∈ ds, AllDel d

/-- All keys recorded below the node are recovered keys. -/
def DelOk (n : Node) : Prop := ∀ d ∈ n.deletedKeys, AllDel d

theorem allDel_iff (n : Node) : AllDel n ↔ n.key.cellState ≠ .Allocated ∧ DelOk n := by
  constructor
  · rintro ⟨_, h1, h2⟩; exact ⟨h1, h2⟩
  · rintro ⟨h1, h2⟩; exact .mk n h1 h2

theorem attachLoop_allDel (f : Node → Res Node) (off : Nat) (l l' : List Node)
    (hf : ∀ d d', AllDel d → f d = .ok d' → AllDel d') (hl : ∀ d ∈ l, AllDel d)
    (h : updateModifiedLists.attachLoop f off l = .ok l') : ∀ d ∈ l', AllDel d := by
  induction l generalizing l' with
  | nil =>
    rw [updateModifiedLists.attachLoop] at h
    cases h
    intro d hd; cases hd
  | cons d ds ih =>
    rw [updateModifiedLists.attachLoop] at h
    have hd := hl d List.mem_cons_self
    have key : ∀ d', AllDel d' → (match updateModifiedLists.attachLoop f off ds with
        | .err => Res.err
        | .panic => .panic
        | .ok ds => .ok (d' :: ds)) = .ok l' → ∀ d ∈ l', AllDel d := by
      intro d' hd' h'
      cases hr : updateModifiedLists.attachLoop f off ds with
      | err => rw [hr] at h'; cases h'
      | panic => rw [hr] at h'; cases h'
      | ok x =>
        rw [hr] at h'
        cases h'
        intro e he
        rcases List.mem_cons.1 he with rfl | he
        · exact hd'
        · exact ih x (fun d h => hl d (List.mem_cons_of_mem _ h)) hr e he
    by_cases ho : d.key.fileOffset ≠ off
    · rw [if_pos ho] at h
      cases hfd : f d with
      | err => rw [hfd] at h; cases h
      | panic => rw [hfd] at h; cases h
      | ok d' => rw [hfd] at h; exact key d' (hf d d' hd hfd) h
    · rw [if_neg ho] at h
      exact key d hd h

/-- Attaching recovered keys attaches nothing live. -/
theorem updateModifiedLists_delOk (st : State) (hst : StateDel st) (fuel : Nat) (n m : Node)
    (hn : DelOk n) (h : updateModifiedLists st fuel n = .ok m) : DelOk m := by
  induction fuel generalizing n m with
  | zero => simp [updateModifiedLists] at h
  | succ fuel ih =>
    rw [updateModifiedLists] at h
    simp only at h
    split at h
    · cases h; exact hn
    · split at h
      · cases h
      · cases h
      · rename_i deleted hat
        cases h
        show ∀ d ∈ deleted, AllDel d
        cases hp : st.deletedKeys (if n.key.isKeyRoot = true then [] else n.key.path) with
        | none =>
          rw [hp, updateModifiedLists.attachDeleted] at hat
          cases hat
          exact hn
        | some ds =>
          rw [hp, updateModifiedLists.attachDeleted] at hat
          refine attachLoop_allDel _ _ ds _ ?_ (hst _ _ hp) hat
          intro d d' hd hu
          rw [allDel_iff] at hd ⊢
          refine ⟨?_, ih d d' hd.2 hu⟩
          rw [updateModifiedLists_key _ _ _ _ hu]
          exact hd.1

theorem isReadChild_delOk (env : Env) (st : State) (hst : StateDel st) (gm : Bool) (n : Node)
    (h : IsReadChild env st gm n) : DelOk n := by
  obtain ⟨_, _, ro, k0, m, hd, hm⟩ := h
  unfold DelOk
  rw [hd]
  cases gm with
  | true =>
    exact updateModifiedLists_delOk { st with rootOffset := ro } hst _ _ m (by intro d hd; cases hd) hm
  | false => cases hm; intro d hd; cases hd

/-! ### One round -/

/-- Pushing children keeps the others and pushes only unmarked offsets. -/
theorem foldl_pushCheck (l : List Node) (ctx : IterCtx) :
    ∃ news, l.foldl IterCtx.pushCheck ctx =
        { ctx with stack := news ++ ctx.stack, seen := news.map (·.key.fileOffset) ++ ctx.seen } ∧
      (∀ n ∈ news, n ∈ l) ∧ (news.map (·.key.fileOffset)).Nodup ∧
      ∀ n ∈ news, n.key.fileOffset ∉ ctx.seen := by
  induction l generalizing ctx with
  | nil => exact ⟨[], rfl, by simp, by simp, by simp⟩
  | cons a as ih =>
    rw [List.foldl_cons]
    by_cases ha : a.key.fileOffset ∈ ctx.seen
    · have : ctx.pushCheck a = ctx := by unfold IterCtx.pushCheck; rw [if_pos ha]
      rw [this]
      obtain ⟨news, h1, h2, h3, h4⟩ := ih ctx
      exact ⟨news, h1, fun n hn => List.mem_cons_of_mem _ (h2 n hn), h3, h4⟩
    · have : ctx.pushCheck a = { ctx with seen := a.key.fileOffset :: ctx.seen, stack := a :: ctx.stack } := by
        unfold IterCtx.pushCheck; rw [if_neg ha]
      rw [this]
      obtain ⟨news, h1, h2, h3, h4⟩ :=
        ih { ctx with seen := a.key.fileOffset :: ctx.seen, stack := a :: ctx.stack }
      refine ⟨news ++ [a], ?_, ?_, ?_, ?_⟩
      · rw [h1]; simp
      · intro n hn
        rcases List.mem_append.1 hn with hn | hn
        · exact List.mem_cons_of_mem _ (h2 n hn)
        · rw [List.mem_singleton.1 hn]; exact List.mem_cons_self
      · rw [List.map_append, List.nodup_append]
        refine ⟨h3, by simp, ?_⟩
        intro x hx y hy
        obtain ⟨n, hn, rfl⟩ := List.mem_map.1 hx
        have := h4 n hn
        simp only [List.map_cons, List.map_nil, List.mem_singleton] at hy
        simp only [List.mem_cons, not_or] at this
        rw [hy]; exact this.1
      · intro n hn
        rcases List.mem_append.1 hn with hn | hn
        · have := h4 n hn
          simp only [List.mem_cons, not_or] at this
          exact this.2
        · rw [List.mem_singleton.1 hn]; exact ha

/-- Expanding a node: never an error; the key keeps everything but messages, offsets and the
number of children; the stack gets freshly marked children; only the cached root offset of the
state changes. -/
theorem pushKids_facts (env : Env) (ctx : IterCtx) (node : Node) :
    pushKids env ctx node ≠ .err ∧
    (pushKids env ctx node = .panic →
      readSubKeysInternal env ctx.state node ctx.filter none ctx.getModified = .panic) ∧
    ∀ node' ctx', pushKids env ctx node = .ok (node', ctx') →
      (∃ lg offs tr, node' = node.setKey { node.key with logs := lg, subKeyOffsets := offs, toReturn := tr }) ∧
      ∃ ro news, ctx' =
          { ctx with
            state := { ctx.state with rootOffset := ro }
            stack := news ++ ctx.stack
            seen := news.map (·.key.fileOffset) ++ ctx.seen } ∧
        (∀ n ∈ news, IsReadChild env ctx.state ctx.getModified n) ∧
        (news.map (·.key.fileOffset)).Nodup ∧ ∀ n ∈ news, n.key.fileOffset ∉ ctx.seen := by
  unfold pushKids
  by_cases h : 0 < node.key.nSubKeys
  · rw [if_pos h]
    obtain ⟨h1, h2⟩ := readSubKeysInternal_facts env ctx.state node ctx.filter none ctx.getModified
    cases hr : readSubKeysInternal env ctx.state node ctx.filter none ctx.getModified with
    | err => exact absurd hr h1
    | panic => exact ⟨by simp, fun _ => rfl, by simp⟩
    | ok r =>
      refine ⟨by simp, by simp, ?_⟩
      intro node' ctx' h
      cases h
      obtain ⟨⟨lg, so, hs⟩, hc⟩ := h2 r hr
      refine ⟨⟨lg, so, r.children.length, by rw [hs]; rfl⟩, ?_⟩
      obtain ⟨news, e, hm, hn, hs⟩ := foldl_pushCheck r.children.reverse
        { ctx with state := { ctx.state with rootOffset := r.rootOffset } }
      exact ⟨r.rootOffset, news, e, fun n hn => hc n (List.mem_reverse.1 (hm n hn)), hn, hs⟩
  · rw [if_neg h]
    refine ⟨by simp, by simp, ?_⟩
    intro node' ctx' h
    cases h
    refine ⟨⟨node.key.logs, node.key.subKeyOffsets, node.key.toReturn, by cases node; rfl⟩, ?_⟩
    exact ⟨ctx.state.rootOffset, [], rfl, by simp, by simp, by simp⟩

/-! ### Counting unmarked offsets -/

/-- Offsets up to `L` that are not marked. -/
def unseen (L : Nat) (seen : List Nat) : Nat :=
  ((List.range (L + 1)).filter fun x => decide (x ∉ seen)).length

theorem length_filter_lt {α : Type} (p q : α → Bool) (l : List α) (a : α) (ha : a ∈ l)
    (hp : p a = true) (hq : q a = false) (hqp : ∀ x, q x = true → p x = true) :
    (l.filter q).length < (l.filter p).length := by
  induction l with
  | nil => cases ha
  | cons b l ih =>
    have hle : (l.filter q).length ≤ (l.filter p).length := by
      clear ih ha
      induction l with
      | nil => simp
      | cons c l ih =>
        rw [List.filter_cons, List.filter_cons]
        by_cases hc : q c = true
        · rw [if_pos hc, if_pos (hqp c hc)]; simp only [List.length_cons]; omega
        · rw [if_neg hc]; split <;> (try simp only [List.length_cons]) <;> omega
    rw [List.filter_cons, List.filter_cons]
    rcases List.mem_cons.1 ha with rfl | ha
    · rw [if_pos hp, if_neg (by simp [hq])]; simp only [List.length_cons]; omega
    · have := ih ha
      by_cases hc : q b = true
      · rw [if_pos hc, if_pos (hqp b hc)]; simp only [List.length_cons]; omega
      · rw [if_neg hc]; split <;> (try simp only [List.length_cons]) <;> omega

theorem unseen_lt (L : Nat) (seen : List Nat) (news : List Nat) (hne : news ≠ [])
    (hL : ∀ x ∈ news, x ≤ L) (hs : ∀ x ∈ news, x ∉ seen) :
    unseen L (news ++ seen) < unseen L seen := by
  obtain ⟨a, as, rfl⟩ := List.exists_cons_of_ne_nil hne
  refine length_filter_lt _ _ _ a ?_ ?_ ?_ ?_
  · rw [List.mem_range]; have := hL a List.mem_cons_self; omega
  · simpa using hs a List.mem_cons_self
  · simp
  · intro x hx
    simp only [List.mem_append, not_or, decide_eq_true_eq] at hx ⊢
    exact hx.2

end Notatin
