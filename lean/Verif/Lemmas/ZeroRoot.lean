import Verif.Lemmas.Open
/-
Recovery leaves the cached root offset as it is: not cached.
-/
namespace Notatin
open Spec

/-- The root offset is not cached. -/
def AtZero (st : State) : Prop := st.rootOffset = 0

theorem readKey_noFilter {env : Env} {st : State} {o : ReadOptions} {x : Option Node} {ro : Nat}
    (h : readKey env st o = .ok (x, ro)) (hf : o.filter = none) : ro = st.rootOffset := by
  unfold readKey at h
  split at h
  · cases h
  · unfold readFromSlice filterStep at h
    rw [hf] at h
    split at h
    · cases h
    · cases h
    · simp only at h
      rw [if_neg (by decide)] at h
      split at h
      · cases h
      · cases h
      · split at h
        · cases h
        · cases h
        · cases h; rfl

theorem initRoot_noFilter {env : Env} {st : State} {x : Option Node} {ro : Nat}
    (h : initRoot env st = .ok (x, ro)) : ro = st.rootOffset := by
  unfold initRoot at h
  split at h
  · cases h
  · split at h
    · cases h
    · exact readKey_noFilter h rfl

/-- A step of the scan keeps the cached root offset. -/
def KeepsZero (f : Bytes → Nat → State → Option (Res State)) : Prop :=
  ∀ i s st st', AtZero st → f i s st = some (.ok st') → AtZero st'

theorem readCellKeyValue_zero (env : Env) {slack} (hs : KeepsZero slack) (input : Bytes) (off : Nat)
    (cs : CellState) (_ : cs ≠ .Allocated) (force : Bool) (st st' : State) (n : Nat) (h : AtZero st)
    (hr : readCellKeyValue env slack input off cs force st = some (.ok (n, st'))) : AtZero st' := by
  unfold readCellKeyValue at hr
  split at hr
  · cases hr
  · cases hr; exact h
  · unfold keepValue at hr
    split at hr
    · cases hr
    · cases hr
    · cases hr
    · rename_i st1 hst1
      have h1 := hs _ _ _ _ h hst1
      split at hr
      · cases hr; exact h1
      · cases hr; exact h1

theorem readCellKeyNode_zero (env : Env) {slack} (hs : KeepsZero slack) (input : Bytes) (off : Nat)
    (cs : CellState) (_ : cs ≠ .Allocated) (force : Bool) (st st' : State) (n : Nat) (h : AtZero st)
    (hr : readCellKeyNode env slack input off cs force st = some (.ok (n, st'))) : AtZero st' := by
  unfold readCellKeyNode at hr
  rcases readFromSlice_deleted env st input off with ⟨k, r, vs, lg, hk, hs1, _⟩ | ⟨_, hs1⟩
  · unfold deletedAt at hs1
    rw [hs1] at hr
    simp only at hr
    obtain ⟨_, _, nm, _, hpath⟩ := fromBytes_fresh _ _ _ _ _ _ _ hk
    unfold keepKey at hr
    split at hr
    · cases hr
    · cases hr
    · cases hr
    · rename_i st1 hst1
      have h1 := hs _ _ _ _ (show AtZero { st with rootOffset := st.rootOffset } from h) hst1
      split at hr
      · cases hr
        exact h1
      · cases hr; exact h1
  · unfold deletedAt at hs1
    rw [hs1] at hr
    cases hr
    exact h

theorem slackLoop_zero (env : Env) {slack} (hs : KeepsZero slack) (input : Bytes) (start : Nat) :
    ∀ (steps offset : Nat) (st st' : State), AtZero st →
      slackLoop env slack input start steps offset st = some (.ok st') → AtZero st' := by
  intro steps
  induction steps with
  | zero => intro offset st st' _ h; cases h
  | succ steps ih =>
    intro offset st st' hf h
    rw [slackLoop] at h
    split at h
    · split at h
      · cases h; exact hf
      · split at h
        · cases h
        · cases h
        · cases h
        · rename_i n st1 hc
          refine ih _ _ _ ?_ h
          unfold slackCell at hc
          split at hc
          · exact readCellKeyNode_zero env hs _ _ _ (by simp) _ _ _ _ hf hc
          · split at hc
            · exact readCellKeyValue_zero env hs _ _ _ (by simp) _ _ _ _ hf hc
            · cases hc; exact hf
    · cases h; exact hf

theorem findCellsInSlack_zero (env : Env) (steps : Nat) : ∀ depth, KeepsZero (findCellsInSlack env steps depth) := by
  intro depth
  induction depth with
  | zero => intro i s st st' _ h; cases h
  | succ depth ih =>
    intro i s st st' hf h
    rw [findCellsInSlack] at h
    exact slackLoop_zero env ih _ _ _ _ _ _ hf h

theorem visitCell_zero (env : Env) (steps : Nat) (ct : CellType) (off size : Nat) (st st' : State)
    (hf : AtZero st) (h : visitCell env steps ct off size st = some (.ok st')) : AtZero st' := by
  have hs := findCellsInSlack_zero env steps env.depth
  unfold visitCell at h
  simp only at h
  split at h
  · split at h
    · cases h; exact hf
    · split at h
      · cases h
      · cases h
      · cases h
      · rename_i hc
        cases h
        exact readCellKeyValue_zero env hs _ _ _ (by simp) _ _ _ _ hf hc
  · split at h
    · cases h; exact hf
    · split at h
      · cases h
      · cases h
      · cases h
      · rename_i hc
        cases h
        exact readCellKeyNode_zero env hs _ _ _ (by simp) _ _ _ _ hf hc
  · split at h
    · cases h; exact hf
    · exact hs _ _ _ _ hf h

theorem binLoop_zero (env : Env) (hbinMax : Nat) : ∀ (steps : Nat) (input : Bytes) (off off' : Nat)
    (st st' : State), AtZero st → binLoop env hbinMax steps input off st = some (.ok (off', st')) →
    AtZero st' := by
  intro steps
  induction steps with
  | zero => intro input off off' st st' _ h; cases h
  | succ steps ih =>
    intro input off off' st st' hf h
    rw [binLoop] at h
    split at h
    · split at h
      · cases h
      · split at h
        · cases h; exact hf
        · split at h
          · cases h
          · cases h
          · cases h
          · rename_i st1 hv
            have h1 := visitCell_zero env _ _ _ _ _ _ hf hv
            split at h
            · cases h; exact h1
            · exact ih _ _ _ _ _ h1 h
    · cases h; exact hf

theorem scanBins_zero (env : Env) (size : Nat) : ∀ (steps off : Nat) (st st' : State), AtZero st →
    scanBins env size steps off st = some (.ok st') → AtZero st' := by
  intro steps
  induction steps with
  | zero => intro off st st' _ h; cases h
  | succ steps ih =>
    intro off st st' hf h
    rw [scanBins] at h
    split at h
    · split at h
      · cases h
      · cases h
      · cases h
      · rename_i off1 st1 hb
        refine ih _ _ _ ?_ h
        unfold scanBin at hb
        split at hb
        · cases hb
        · split at hb
          · cases hb
          · simp only at hb
            split at hb
            · cases hb
            · exact binLoop_zero env _ _ _ _ _ _ _ hf hb
    · cases h; exact hf

theorem addFullKey_zero (env : Env) (newSeq : Nat) (t : ListType) (path : Str) (off seq : Nat)
    (x y : State × Logs) (hf : AtZero x.1) (h : addFullKey env newSeq t path off seq x = .ok y) :
    AtZero y.1 := by
  unfold addFullKey at h
  split at h
  · cases h
  · cases h; exact hf
  · rename_i ro hr
    cases h; exact (readKey_noFilter hr rfl).trans hf
  · rename_i n ro hr
    cases h
    have := (readKey_noFilter hr rfl).trans hf
    unfold fileKey
    cases t with
    | updated => exact this
    | deleted => exact this

theorem addFullValue_zero (env : Env) (newSeq : Nat) (t : ListType) (path : Str) (off seq : Nat)
    (x y : State × Logs) (hf : AtZero x.1) (h : addFullValue env newSeq t path off seq x = .ok y) :
    AtZero y.1 := by
  unfold addFullValue at h
  split at h
  · cases h; exact hf
  · split at h
    · cases h
    · cases h; exact hf
    · cases h
      unfold fileValue
      cases t with
      | updated => exact hf
      | deleted =>
        exact hf

theorem forEach_zero {α : Type} (f : α → State × Logs → Res (State × Logs))
    (hk : ∀ a x y, AtZero x.1 → f a x = .ok y → AtZero y.1) : ∀ (l : List α) (x y : State × Logs),
    AtZero x.1 → forEach f l x = .ok y → AtZero y.1 := by
  intro l
  induction l with
  | nil => intro x y hx h; cases h; exact hx
  | cons a as ih =>
    intro x y hx h
    rw [forEach] at h
    split at h
    · cases h
    · cases h
    · rename_i z hz
      exact ih _ _ (hk _ _ _ hx hz) h

theorem takeOff_zero (st : State) (x : ItemKey × Item) (hf : AtZero st) : AtZero (takeOff st x) := by
  unfold takeOff
  split
  · exact hf
  · exact hf

theorem foldl_takeOff_zero (l : List (ItemKey × Item)) : ∀ st, AtZero st → AtZero (l.foldl takeOff st) := by
  induction l with
  | nil => intro st h; exact h
  | cons a as ih => intro st h; exact ih _ (takeOff_zero st a h)

theorem analyzeEntry_zero (prior env : Env) (order : RegItemMap → RegItemMap) (steps newSeq : Nat)
    (x y : State × RegItemMap) (hf : AtZero x.1)
    (h : analyzeEntry prior env order steps newSeq x = some (.ok y)) : AtZero y.1 := by
  unfold analyzeEntry at h
  split at h
  · cases h
  · cases h
  · cases h; exact hf
  · rename_i st items logs hg
    cases h
    unfold getLatestRegItems at hg
    split at hg
    · cases hg
    · cases hg
    · rename_i root ro hroot
      simp only at hg
      split at hg
      · cases hg
      · cases hg
      · cases hg
      · simp only [Option.some.injEq] at hg
        unfold analyzeSeen at hg
        split at hg
        · cases hg
        · cases hg
        · split at hg
          · cases hg
          · cases hg
          · rename_i x1 h1
            have f1 : AtZero x1.1 := by
              refine forEach_zero _ (fun a x y hx h => addFullKey_zero _ _ _ _ _ _ x y hx h) _ _ _ ?_ h1
              exact (initRoot_noFilter hroot).trans hf
            split at hg
            · cases hg
            · cases hg
            · rename_i x2 h2
              have f2 := forEach_zero _ (fun a x y hx h => addFullValue_zero _ _ _ _ _ _ x y hx h) _ _ _ f1 h2
              split at hg
              · cases hg
              · cases hg
              · rename_i x3 h3
                have f3 := forEach_zero (addDeleted prior newSeq) (fun a x y hx h => by
                  unfold addDeleted at h
                  split at h
                  · exact addFullValue_zero _ _ _ _ _ _ x y hx h
                  · exact addFullKey_zero _ _ _ _ _ _ x y hx h) _ _ _ f2 h3
                cases hg
                exact foldl_takeOff_zero _ _ f3

/-- The root offset of what is recorded, if anything, is not cached. -/
def ZeroR (r : Recovery) : Prop := ∀ x, r = some (.ok x) → AtZero x.1

theorem open_zero (w : World) (recover : Bool) (buf : Bytes) (logs : List TransactionLog) (sup : Bool)
    (h : Hive Recovery)
    (he : openHive (w.analyze recover) (w.initItems recover) (w.scan recover) buf (some (.ok ({}, []))) logs
      = .ok (sup, h)) : ZeroR h.recovery := by
  refine openHive_inv _ _ _ ZeroR ?_ ?_ ?_ _ _ _ _ _ ?_ he
  · intro a n b s hs x hx
    unfold World.analyze at hx
    split at hx
    · rename_i y
      split at hx
      · exact analyzeEntry_zero _ _ _ _ _ _ _ (hs _ rfl) hx
      · cases hx; exact hs _ rfl
    · exact hs x hx
  · intro b s s' hs hi x hx
    unfold World.initItems at hi
    split at hi
    · rename_i y
      split at hi
      · split at hi
        · cases hi; cases hx
        · cases hi
        · cases hi
        · rename_i items st hg
          cases hi
          cases hx
          unfold getRegItems at hg
          split at hg
          · cases hg
          · cases hg
          · rename_i root ro hroot
            simp only at hg
            split at hg
            · cases hg
            · cases hg
            · cases hg
            · split at hg
              · cases hg
                exact (initRoot_noFilter hroot).trans (hs y rfl)
              · cases hg
              · cases hg
      · cases hi; exact hs x hx
    · cases hi; exact hs x hx
  · intro b bb s s' hs hi x hx
    unfold World.scan at hi
    split at hi
    · rename_i y
      split at hi
      · split at hi
        · cases hi; cases hx
        · cases hi
        · cases hi
        · rename_i st hg
          cases hi
          cases hx
          exact scanBins_zero _ _ _ _ _ _ (hs y rfl) hg
      · cases hi; exact hs x hx
    · cases hi; exact hs x hx
  · intro x hx; cases hx; exact rfl

end Notatin
