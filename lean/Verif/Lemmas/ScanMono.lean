import Verif.Model.Recover
/-
More rounds do not change what the scan for deleted cells gives.
-/
namespace Notatin

/-- What has ended with `x` ends the same with `y`. -/
def Before {α : Type} (x y : Option α) : Prop := ∀ r, x = some r → y = some r

theorem Before.refl {α : Type} (x : Option α) : Before x x := fun _ h => h

theorem keepValue_before (env : Env) {slack slack' : Bytes → Nat → State → Option (Res State)}
    (h : ∀ i o st, Before (slack i o st) (slack' i o st)) (kv : KeyValue) (cs : CellState) (force : Bool) (st : State) :
    Before (keepValue env slack kv cs force st) (keepValue env slack' kv cs force st) := by
  intro r hr
  unfold keepValue at hr ⊢
  cases hx : slack kv.slack kv.slackOffset st with
  | none => rw [hx] at hr; cases hr
  | some v => rw [h _ _ _ v hx]; rw [hx] at hr; exact hr

theorem keepKey_before {slack slack' : Bytes → Nat → State → Option (Res State)}
    (h : ∀ i o st, Before (slack i o st) (slack' i o st)) (n : Node) (cs : CellState) (force : Bool) (st : State) :
    Before (keepKey slack n cs force st) (keepKey slack' n cs force st) := by
  intro r hr
  unfold keepKey at hr ⊢
  cases hx : slack n.key.slack n.key.slackOffset st with
  | none => rw [hx] at hr; cases hr
  | some v => rw [h _ _ _ v hx]; rw [hx] at hr; exact hr

theorem readCellKeyValue_before (env : Env) {slack slack' : Bytes → Nat → State → Option (Res State)}
    (h : ∀ i o st, Before (slack i o st) (slack' i o st)) (input : Bytes) (off : Nat) (cs : CellState) (force : Bool) (st : State) :
    Before (readCellKeyValue env slack input off cs force st) (readCellKeyValue env slack' input off cs force st) := by
  intro r hr
  unfold readCellKeyValue at hr ⊢
  split
  · rename_i hk; rw [hk] at hr; exact hr
  · rename_i hk; rw [hk] at hr; exact hr
  · rename_i hk; rw [hk] at hr; exact keepValue_before env h _ _ _ _ _ hr

theorem readCellKeyNode_before (env : Env) {slack slack' : Bytes → Nat → State → Option (Res State)}
    (h : ∀ i o st, Before (slack i o st) (slack' i o st)) (input : Bytes) (off : Nat) (cs : CellState) (force : Bool) (st : State) :
    Before (readCellKeyNode env slack input off cs force st) (readCellKeyNode env slack' input off cs force st) := by
  intro r hr
  unfold readCellKeyNode at hr ⊢
  split
  · rename_i hk; rw [hk] at hr; exact hr
  · rename_i hk; rw [hk] at hr; exact hr
  · rename_i hk; rw [hk] at hr; exact hr
  · rename_i hk; rw [hk] at hr; exact keepKey_before h _ _ _ _ _ hr

theorem slackCell_before (env : Env) {slack slack' : Bytes → Nat → State → Option (Res State)}
    (h : ∀ i o st, Before (slack i o st) (slack' i o st)) (input rest : Bytes) (off : Nat) (st : State) :
    Before (slackCell env slack input rest off st) (slackCell env slack' input rest off st) := by
  unfold slackCell
  split
  · exact readCellKeyNode_before env h _ _ _ _ _
  · split
    · exact readCellKeyValue_before env h _ _ _ _ _
    · exact .refl _

theorem slackLoop_before (env : Env) {slack slack' : Bytes → Nat → State → Option (Res State)}
    (h : ∀ i o st, Before (slack i o st) (slack' i o st)) (input : Bytes) (start : Nat) :
    ∀ (n m : Nat), n ≤ m → ∀ (off : Nat) (st : State),
      Before (slackLoop env slack input start n off st) (slackLoop env slack' input start m off st) := by
  intro n
  induction n with
  | zero => intro m _ off st r hr; cases hr
  | succ n ih =>
    intro m hm off st r hr
    obtain ⟨m, rfl⟩ : ∃ k, m = k + 1 := ⟨m - 1, by omega⟩
    rw [slackLoop] at hr ⊢
    split at hr
    · rename_i ho
      rw [if_pos ho]
      split at hr
      · exact hr
      · rename_i rest hl
        cases hx : slackCell env slack (input.drop off) rest (start + off) st with
        | none => rw [hx] at hr; cases hr
        | some v =>
          rw [slackCell_before env h _ _ _ _ v hx]
          rw [hx] at hr
          rcases v with ⟨k, st'⟩ | _ | _
          · exact ih m (by omega) _ _ r hr
          · exact hr
          · exact hr
    · rename_i ho; rw [if_neg ho]; exact hr

theorem findCellsInSlack_before (env : Env) {n m : Nat} (hm : n ≤ m) : ∀ (depth : Nat) (i : Bytes) (o : Nat) (st : State),
    Before (findCellsInSlack env n depth i o st) (findCellsInSlack env m depth i o st) := by
  intro depth
  induction depth with
  | zero => intro i o st; exact .refl _
  | succ d ih => intro i o st; exact slackLoop_before env ih i o n m hm 0 st

theorem visitCell_before (env : Env) {n m : Nat} (hm : n ≤ m) (t : CellType) (off size : Nat) (st : State) :
    Before (visitCell env n t off size st) (visitCell env m t off size st) := by
  have hs := findCellsInSlack_before env hm env.depth
  intro r hr
  unfold visitCell at hr ⊢
  simp only at hr ⊢
  split
  · split
    · rename_i hx; rw [hx] at hr; exact hr
    · rename_i input hx
      rw [hx] at hr
      simp only at hr
      cases hc : readCellKeyValue env (findCellsInSlack env n env.depth) input off .DeletedPrimaryFile false st with
      | none => rw [hc] at hr; cases hr
      | some v => rw [readCellKeyValue_before env hs _ _ _ _ _ v hc]; rw [hc] at hr; exact hr
  · split
    · rename_i hx; rw [hx] at hr; exact hr
    · rename_i input hx
      rw [hx] at hr
      simp only at hr
      cases hc : readCellKeyNode env (findCellsInSlack env n env.depth) input off .DeletedPrimaryFile false st with
      | none => rw [hc] at hr; cases hr
      | some v => rw [readCellKeyNode_before env hs _ _ _ _ _ v hc]; rw [hc] at hr; exact hr
  · split
    · rename_i hx; split at hr
      · simp_all
      · simp_all
      · rw [hx] at hr; exact hr
    · rename_i hx; split at hr
      · simp_all
      · simp_all
      · rw [hx] at hr; exact hs _ _ _ r hr

theorem binLoop_before (env : Env) (max : Nat) : ∀ (n m : Nat), n ≤ m → ∀ (input : Bytes) (off : Nat) (st : State),
    Before (binLoop env max n input off st) (binLoop env max m input off st) := by
  intro n
  induction n with
  | zero => intro m _ input off st r hr; cases hr
  | succ n ih =>
    intro m hm input off st r hr
    obtain ⟨m, rfl⟩ : ∃ k, m = k + 1 := ⟨m - 1, by omega⟩
    rw [binLoop] at hr ⊢
    split at hr
    · rename_i ho
      rw [if_pos ho]
      split at hr
      · exact hr
      · rename_i size rest hl
        split at hr
        · rename_i hz; rw [if_pos hz]; exact hr
        · rename_i hz
          rw [if_neg hz]
          cases hx : visitCell env (n + 1) (CellType.readCellType rest) off (unsignedAbs size) st with
          | none => rw [hx] at hr; cases hr
          | some v =>
            rw [visitCell_before env hm _ _ _ _ v hx]
            rw [hx] at hr
            rcases v with st' | _ | _
            · simp only at hr ⊢
              split
              · rename_i hy; rw [hy] at hr; exact hr
              · rename_i hy; rw [hy] at hr; exact ih m (by omega) _ _ _ r hr
            · exact hr
            · exact hr
    · rename_i ho; rw [if_neg ho]; exact hr

theorem scanBin_before (env : Env) {n m : Nat} (hm : n ≤ m) (off : Nat) (st : State) :
    Before (scanBin env n off st) (scanBin env m off st) := by
  intro r hr
  unfold scanBin at hr ⊢
  split
  · rename_i h; rw [h] at hr; exact hr
  · rename_i h
    rw [h] at hr
    simp only at hr
    split
    · rename_i h; rw [h] at hr; exact hr
    · rename_i h
      rw [h] at hr
      simp only at hr ⊢
      split
      · rename_i h; rw [h] at hr; exact hr
      · rename_i h; rw [h] at hr; exact binLoop_before env _ n m hm _ _ _ r hr

theorem scanBins_before (env : Env) (size : Nat) : ∀ (n m : Nat), n ≤ m → ∀ (off : Nat) (st : State),
    Before (scanBins env size n off st) (scanBins env size m off st) := by
  intro n
  induction n with
  | zero => intro m _ off st r hr; cases hr
  | succ n ih =>
    intro m hm off st r hr
    obtain ⟨m, rfl⟩ : ∃ k, m = k + 1 := ⟨m - 1, by omega⟩
    rw [scanBins] at hr ⊢
    split at hr
    · rename_i ho
      rw [if_pos ho]
      cases hx : scanBin env (n + 1) off st with
      | none => rw [hx] at hr; cases hr
      | some v =>
        rw [scanBin_before env hm _ _ v hx]
        rw [hx] at hr
        rcases v with ⟨o, st'⟩ | _ | _
        · exact ih m (by omega) _ _ r hr
        · exact hr
        · exact hr
    · rename_i ho; rw [if_neg ho]; exact hr

end Notatin
