import Verif.Model.CSharpGen
import Verif.Model.MaybeFile

/-!
# The generated C# files of the repository, compared with what the model generates

`steit-derive/test-crate/src/lib.rs:246-274` generates `steit-csharp/src/State/LogEntry.cs`, `steit-csharp/src/Builtins/Maybe.cs` and
`steit-csharp/tests/*.cs`. These files are part of the repository. Here the model of the generator (`Verif/Model/CSharpGen.lean`), given
the metadata of the types (`lib.rs:50-244`, `steit/src/log/entry.rs:20-48`), produces some of them character by character.
These are tests of the model, evaluated by Lean's interpreter (`#guard`), one of them by the kernel. (Those not repeated here, `Action`, `Attack`,
`Hit`, `Skill`, `Outer` and `Inner`, were compared in the same way while the model was written.)
-/

namespace Steit.Conformance

open Gen

/-! ## Metadata, as the derive macro and the implementations of `HasMeta` give it -/

/-- A name without a C# name of its own. -/
def nm (s : String) : NameMeta := ⟨s, none⟩
/-- A primitive, `steit/src/impls/macros.rs:95-109`. -/
def prim (r c : String) : FieldTypeMeta := .type (.primitive ⟨r, some c⟩ .varint)
def tI32 := prim "i32" "Int32"
def tU32 := prim "u32" "UInt32"
def tU16 := prim "u16" "UInt16"
def tU8 := prim "u8" "Byte"
def tBool := prim "bool" "Boolean"
/-- A message without type arguments. -/
def mref (s : String) : FieldTypeMeta := .type (.ref (nm s) .nil)
def bytesT := mref "Bytes"
/-- A built-in generic type. -/
def app (r c : String) (as : List FieldTypeMeta) : FieldTypeMeta := .type (.ref ⟨r, some c⟩ (as.foldr .cons .nil))
/-- A generic message. -/
def app' (r : String) (as : List FieldTypeMeta) : FieldTypeMeta := .type (.ref ⟨r, none⟩ (as.foldr .cons .nil))
def vecOf (t : FieldTypeMeta) := app "Vec" "Vector" [t]
def listOf (t : FieldTypeMeta) := app "List" "StateList" [t]
def mapOf (k v : FieldTypeMeta) := app "Map" "StateMap" [k, v]
def boxOf (v : FieldTypeMeta) := app "Box" "Box" [v]
/-- A field. -/
def fld (n : String) (t : FieldTypeMeta) (tag : U32) : FieldMeta := ⟨nm n, t, tag⟩
/-- A struct. -/
def st (n : String) (ps : List String) (fs : List FieldMeta) (b := false) : StructMeta := ⟨nm n, ps, fs, b⟩
/-- A variant. -/
def vr (n : String) (tag : U32) (fs : List FieldMeta) (b := false) : VariantMeta := ⟨⟨nm n, [], fs, b⟩, tag⟩
def actionsOr (t : FieldTypeMeta) := app' "ActionsOr" [t]
def action := mref "Action"

/-! ## `steit-csharp/src/State/LogEntry.cs` -/

def metaLogEntry : MessageMeta := .enum ⟨nm "LogEntry", [], [
  vr "Update" 0 [⟨⟨"path", some "flatten_path"⟩, vecOf tU32, 0⟩, fld "value" bytesT 1] true,
  vr "ListPush" 8 [⟨⟨"path", some "flatten_path"⟩, vecOf tU32, 0⟩, fld "item" bytesT 1] true,
  vr "ListPop" 9 [⟨⟨"path", some "flatten_path"⟩, vecOf tU32, 0⟩] true,
  vr "MapRemove" 12 [⟨⟨"path", some "flatten_path"⟩, vecOf tU32, 0⟩, fld "key" tU32 1] true], true⟩

#guard source ascii ⟨lit! "Steit.State", []⟩ metaLogEntry = some logEntryFile

/-! ## `steit-csharp/src/Builtins/Maybe.cs` -/

def metaMaybe : MessageMeta := .enum ⟨nm "Maybe", ["T"], [vr "None" 0 [], vr "Some" 1 [fld "f0" (.typeParam "T") 0]], false⟩

#guard source ascii ⟨lit! "Steit.Builtins", []⟩ metaMaybe = some maybeFile

/-! ## `steit-csharp/tests/Sure.cs` -/

def metaSure : MessageMeta := .struct (st "Sure" ["T"] [fld "f0" (.typeParam "T") 0])

example : source ascii ⟨lit! "Just.To.Test", []⟩ metaSure = some (unlines [
    text! "using System;",
    text! "",
    text! "using Steit.Builtins;",
    text! "using Steit.Codec;",
    text! "using Steit.Collections;",
    text! "using Steit.State;",
    text! "using Steit.State.Event;",
    text! "",
    text! "namespace Just.To.Test {",
    text! "    public sealed partial class Sure<T> : IState {",
    text! "        public Path Path { get; }",
    text! "        public T F0 { get; private set; }",
    text! "",
    text! "        public Sure(Path path = null) {",
    text! "            StateFactory.ValidateType(typeof(T));",
    text! "            this.Path = path ?? Path.Root;",
    text! "            this.F0 = StateFactory.Construct<T>(this.Path.GetNested(0));",
    text! "        }",
    text! "",
    text! "        public static event EventHandler<FieldUpdateEventArgs<T, Sure<T>>> OnF0Update;",
    text! "",
    text! "        public static void ClearF0UpdateHandlers() {",
    text! "            OnF0Update = null;",
    text! "        }",
    text! "",
    text! "        public static void ClearUpdateHandlers() {",
    text! "            OnF0Update = null;",
    text! "        }",
    text! "",
    text! "        public static Sure<T> Deserialize(IReader reader, Path path = null) {",
    text! "            var sure = new Sure<T>(path);",
    text! "            sure.Replace(reader, shouldNotify: false);",
    text! "            return sure;",
    text! "        }",
    text! "",
    text! "        public WireType? GetWireType(UInt32 tag) {",
    text! "            switch (tag) {",
    text! "                case 0: return StateFactory.IsStateType(typeof(T)) ? WireType.Sized : WireType.Varint;",
    text! "                default: return null;",
    text! "            }",
    text! "        }",
    text! "",
    text! "        public IState GetNested(UInt32 tag) {",
    text! "            switch (tag) {",
    text! "                case 0: return this.F0 as IState;",
    text! "                default: return null;",
    text! "            }",
    text! "        }",
    text! "",
    text! "        public void ReplaceAt(UInt32 tag, WireType wireType, IReader reader, bool shouldNotify) {",
    text! "            switch (tag) {",
    text! "                case 0: this.F0 = this.MaybeNotify(0, StateFactory.Deserialize<T>(reader, this.Path, 0), this.F0, OnF0Update, shouldNotify); break;",
    text! "                default: reader.SkipField(wireType); break;",
    text! "            }",
    text! "        }",
    text! "",
    text! "        public void ReplayListPush(IReader reader) { throw new NotSupportedException(); }",
    text! "        public void ReplayListPop() { throw new NotSupportedException(); }",
    text! "        public void ReplayMapRemove(UInt32 key) { throw new NotSupportedException(); }",
    text! "",
    text! "        private TValue MaybeNotify<TValue>(",
    text! "            UInt32 tag,",
    text! "            TValue newValue,",
    text! "            TValue oldValue,",
    text! "            EventHandler<FieldUpdateEventArgs<TValue, Sure<T>>> handler,",
    text! "            bool shouldNotify",
    text! "        ) {",
    text! "            if (shouldNotify) {",
    text! "                var args = new FieldUpdateEventArgs<TValue, Sure<T>>(tag, newValue, oldValue, this);",
    text! "                handler?.Invoke(this, args);",
    text! "            }",
    text! "",
    text! "            return newValue;",
    text! "        }",
    text! "    }",
    text! "}"]) := by decide +kernel

/-! ## `steit-csharp/tests/ActionsOr.cs` -/

def metaActionsOr : MessageMeta := .enum ⟨nm "ActionsOr", ["T"], [vr "Actions" 0 [fld "f0" (vecOf action) 0], vr "Value" 1 [fld "f0" (.typeParam "T") 0]], false⟩

#guard source ascii ⟨lit! "Just.To.Test", []⟩ metaActionsOr = some (unlines [
    text! "using System;",
    text! "",
    text! "using Steit.Builtins;",
    text! "using Steit.Codec;",
    text! "using Steit.Collections;",
    text! "using Steit.State;",
    text! "using Steit.State.Event;",
    text! "",
    text! "namespace Just.To.Test {",
    text! "    public sealed partial class ActionsOr<T> : IEnumState {",
    text! "        public const UInt32 ActionsTag = 0;",
    text! "        public const UInt32 ValueTag = 1;",
    text! "",
    text! "        public Path Path { get; }",
    text! "",
    text! "        public UInt32 Tag { get; private set; }",
    text! "        public IState Variant { get; private set; }",
    text! "",
    text! "        public Actions ActionsVariant { get { return this.Variant as Actions; } }",
    text! "        public Value ValueVariant { get { return this.Variant as Value; } }",
    text! "",
    text! "        public ActionsOr(Path path = null) : this(path, 0) { }",
    text! "",
    text! "        public ActionsOr(Path path, UInt32 tag) {",
    text! "            StateFactory.ValidateType(typeof(T));",
    text! "            this.Path = path ?? Path.Root;",
    text! "            this.Tag = tag;",
    text! "",
    text! "            switch (tag) {",
    text! "                case 0: this.Variant = new Actions(this.Path.GetNested(0)); break;",
    text! "                case 1: this.Variant = new Value(this.Path.GetNested(1)); break;",
    text! "                default: this.Variant = new Actions(this.Path.GetNested(0)); break;",
    text! "            }",
    text! "        }",
    text! "",
    text! "        public static ActionsOr NewActions(Path path = null) { return new ActionsOr(path, 0); }",
    text! "        public static ActionsOr NewValue(Path path = null) { return new ActionsOr(path, 1); }",
    text! "",
    text! "        public static event EventHandler<VariantUpdateEventArgs<ActionsOr<T>>> OnUpdate;",
    text! "",
    text! "        public static void ClearUpdateHandlers() {",
    text! "            OnUpdate = null;",
    text! "        }",
    text! "",
    text! "        public static ActionsOr<T> Deserialize(IReader reader, Path path = null) {",
    text! "            var actionsOr = new ActionsOr<T>(path);",
    text! "            actionsOr.Replace(reader, shouldNotify: false);",
    text! "            return actionsOr;",
    text! "        }",
    text! "",
    text! "        public WireType? GetWireType(UInt32 tag) {",
    text! "            switch (tag) {",
    text! "                case 0: return WireType.Sized;",
    text! "                case 1: return WireType.Sized;",
    text! "                default: return null;",
    text! "            }",
    text! "        }",
    text! "",
    text! "        public IState GetNested(UInt32 tag) {",
    text! "            return tag == this.Tag ? this.Variant : null;",
    text! "        }",
    text! "",
    text! "        public void ReplaceAt(UInt32 tag, WireType wireType, IReader reader, bool shouldNotify) {",
    text! "            switch (tag) {",
    text! "                case 0: this.UpdateAndNotify(0, Actions.Deserialize(reader, this.Path.GetNested(0)), shouldNotify); break;",
    text! "                case 1: this.UpdateAndNotify(1, Value.Deserialize(reader, this.Path.GetNested(1)), shouldNotify); break;",
    text! "                default: reader.SkipToEnd(); break;",
    text! "            }",
    text! "        }",
    text! "",
    text! "        public void ReplayListPush(IReader reader) { throw new NotSupportedException(); }",
    text! "        public void ReplayListPop() { throw new NotSupportedException(); }",
    text! "        public void ReplayMapRemove(UInt32 key) { throw new NotSupportedException(); }",
    text! "",
    text! "        private void UpdateAndNotify(UInt32 newTag, IState newVariant, bool shouldNotify) {",
    text! "            if (shouldNotify) {",
    text! "                var args = new VariantUpdateEventArgs<ActionsOr<T>>(newTag, newVariant, this.Tag, this.Variant, this);",
    text! "                ActionsOr<T>.OnUpdate?.Invoke(this, args);",
    text! "            }",
    text! "",
    text! "            this.Tag = newTag;",
    text! "            this.Variant = newVariant;",
    text! "        }",
    text! "",
    text! "        // Variant (0): Actions",
    text! "",
    text! "        public sealed partial class Actions : IState {",
    text! "            public Path Path { get; }",
    text! "            public Vector<Action> F0 { get; private set; }",
    text! "",
    text! "            internal Actions(Path path = null) {",
    text! "                this.Path = path ?? Path.Root;",
    text! "                this.F0 = new Vector<Action>(this.Path.GetNested(0));",
    text! "            }",
    text! "",
    text! "            public static event EventHandler<FieldUpdateEventArgs<Vector<Action>, Actions>> OnF0Update;",
    text! "",
    text! "            public static void ClearF0UpdateHandlers() {",
    text! "                OnF0Update = null;",
    text! "            }",
    text! "",
    text! "            public static void ClearUpdateHandlers() {",
    text! "                OnF0Update = null;",
    text! "            }",
    text! "",
    text! "            internal static Actions Deserialize(IReader reader, Path path = null) {",
    text! "                var actions = new Actions(path);",
    text! "                actions.Replace(reader, shouldNotify: false);",
    text! "                return actions;",
    text! "            }",
    text! "",
    text! "            public WireType? GetWireType(UInt32 tag) {",
    text! "                switch (tag) {",
    text! "                    case 0: return WireType.Sized;",
    text! "                    default: return null;",
    text! "                }",
    text! "            }",
    text! "",
    text! "            public IState GetNested(UInt32 tag) {",
    text! "                switch (tag) {",
    text! "                    case 0: return this.F0;",
    text! "                    default: return null;",
    text! "                }",
    text! "            }",
    text! "",
    text! "            public void ReplaceAt(UInt32 tag, WireType wireType, IReader reader, bool shouldNotify) {",
    text! "                switch (tag) {",
    text! "                    case 0: this.F0 = this.MaybeNotify(0, Vector<Action>.Deserialize(reader, this.Path.GetNested(0)), this.F0, OnF0Update, shouldNotify); break;",
    text! "                    default: reader.SkipField(wireType); break;",
    text! "                }",
    text! "            }",
    text! "",
    text! "            public void ReplayListPush(IReader reader) { throw new NotSupportedException(); }",
    text! "            public void ReplayListPop() { throw new NotSupportedException(); }",
    text! "            public void ReplayMapRemove(UInt32 key) { throw new NotSupportedException(); }",
    text! "",
    text! "            private TValue MaybeNotify<TValue>(",
    text! "                UInt32 tag,",
    text! "                TValue newValue,",
    text! "                TValue oldValue,",
    text! "                EventHandler<FieldUpdateEventArgs<TValue, Actions>> handler,",
    text! "                bool shouldNotify",
    text! "            ) {",
    text! "                if (shouldNotify) {",
    text! "                    var args = new FieldUpdateEventArgs<TValue, Actions>(tag, newValue, oldValue, this);",
    text! "                    handler?.Invoke(this, args);",
    text! "                }",
    text! "",
    text! "                return newValue;",
    text! "            }",
    text! "        }",
    text! "",
    text! "        // Variant (1): Value",
    text! "",
    text! "        public sealed partial class Value : IState {",
    text! "            public Path Path { get; }",
    text! "            public T F0 { get; private set; }",
    text! "",
    text! "            internal Value(Path path = null) {",
    text! "                this.Path = path ?? Path.Root;",
    text! "                this.F0 = StateFactory.Construct<T>(this.Path.GetNested(0));",
    text! "            }",
    text! "",
    text! "            public static event EventHandler<FieldUpdateEventArgs<T, Value>> OnF0Update;",
    text! "",
    text! "            public static void ClearF0UpdateHandlers() {",
    text! "                OnF0Update = null;",
    text! "            }",
    text! "",
    text! "            public static void ClearUpdateHandlers() {",
    text! "                OnF0Update = null;",
    text! "            }",
    text! "",
    text! "            internal static Value Deserialize(IReader reader, Path path = null) {",
    text! "                var value = new Value(path);",
    text! "                value.Replace(reader, shouldNotify: false);",
    text! "                return value;",
    text! "            }",
    text! "",
    text! "            public WireType? GetWireType(UInt32 tag) {",
    text! "                switch (tag) {",
    text! "                    case 0: return StateFactory.IsStateType(typeof(T)) ? WireType.Sized : WireType.Varint;",
    text! "                    default: return null;",
    text! "                }",
    text! "            }",
    text! "",
    text! "            public IState GetNested(UInt32 tag) {",
    text! "                switch (tag) {",
    text! "                    case 0: return this.F0 as IState;",
    text! "                    default: return null;",
    text! "                }",
    text! "            }",
    text! "",
    text! "            public void ReplaceAt(UInt32 tag, WireType wireType, IReader reader, bool shouldNotify) {",
    text! "                switch (tag) {",
    text! "                    case 0: this.F0 = this.MaybeNotify(0, StateFactory.Deserialize<T>(reader, this.Path, 0), this.F0, OnF0Update, shouldNotify); break;",
    text! "                    default: reader.SkipField(wireType); break;",
    text! "                }",
    text! "            }",
    text! "",
    text! "            public void ReplayListPush(IReader reader) { throw new NotSupportedException(); }",
    text! "            public void ReplayListPop() { throw new NotSupportedException(); }",
    text! "            public void ReplayMapRemove(UInt32 key) { throw new NotSupportedException(); }",
    text! "",
    text! "            private TValue MaybeNotify<TValue>(",
    text! "                UInt32 tag,",
    text! "                TValue newValue,",
    text! "                TValue oldValue,",
    text! "                EventHandler<FieldUpdateEventArgs<TValue, Value>> handler,",
    text! "                bool shouldNotify",
    text! "            ) {",
    text! "                if (shouldNotify) {",
    text! "                    var args = new FieldUpdateEventArgs<TValue, Value>(tag, newValue, oldValue, this);",
    text! "                    handler?.Invoke(this, args);",
    text! "                }",
    text! "",
    text! "                return newValue;",
    text! "            }",
    text! "        }",
    text! "    }",
    text! "}"])

/-! ## `steit-csharp/tests/OldAction.cs` -/

def metaOldAction : MessageMeta := .enum ⟨nm "OldAction", [], [vr "Raw" 0 [fld "log_entries" (listOf tU8) 0],
  vr "Attack" 1 [fld "attacker" tU8 0, fld "defender" tU8 1, fld "hits" (listOf (mref "OldHit")) 2]], false⟩

#guard source ascii ⟨lit! "Just.To.Test", []⟩ metaOldAction = some (unlines [
    text! "using System;",
    text! "",
    text! "using Steit.Builtins;",
    text! "using Steit.Codec;",
    text! "using Steit.Collections;",
    text! "using Steit.State;",
    text! "using Steit.State.Event;",
    text! "",
    text! "namespace Just.To.Test {",
    text! "    public sealed partial class OldAction : IEnumState {",
    text! "        public const UInt32 RawTag = 0;",
    text! "        public const UInt32 AttackTag = 1;",
    text! "",
    text! "        public Path Path { get; }",
    text! "",
    text! "        public UInt32 Tag { get; private set; }",
    text! "        public IState Variant { get; private set; }",
    text! "",
    text! "        public Raw RawVariant { get { return this.Variant as Raw; } }",
    text! "        public Attack AttackVariant { get { return this.Variant as Attack; } }",
    text! "",
    text! "        public OldAction(Path path = null) : this(path, 0) { }",
    text! "",
    text! "        public OldAction(Path path, UInt32 tag) {",
    text! "            this.Path = path ?? Path.Root;",
    text! "            this.Tag = tag;",
    text! "",
    text! "            switch (tag) {",
    text! "                case 0: this.Variant = new Raw(this.Path.GetNested(0)); break;",
    text! "                case 1: this.Variant = new Attack(this.Path.GetNested(1)); break;",
    text! "                default: this.Variant = new Raw(this.Path.GetNested(0)); break;",
    text! "            }",
    text! "        }",
    text! "",
    text! "        public static OldAction NewRaw(Path path = null) { return new OldAction(path, 0); }",
    text! "        public static OldAction NewAttack(Path path = null) { return new OldAction(path, 1); }",
    text! "",
    text! "        public static event EventHandler<VariantUpdateEventArgs<OldAction>> OnUpdate;",
    text! "",
    text! "        public static void ClearUpdateHandlers() {",
    text! "            OnUpdate = null;",
    text! "        }",
    text! "",
    text! "        public static OldAction Deserialize(IReader reader, Path path = null) {",
    text! "            var oldAction = new OldAction(path);",
    text! "            oldAction.Replace(reader, shouldNotify: false);",
    text! "            return oldAction;",
    text! "        }",
    text! "",
    text! "        public WireType? GetWireType(UInt32 tag) {",
    text! "            switch (tag) {",
    text! "                case 0: return WireType.Sized;",
    text! "                case 1: return WireType.Sized;",
    text! "                default: return null;",
    text! "            }",
    text! "        }",
    text! "",
    text! "        public IState GetNested(UInt32 tag) {",
    text! "            return tag == this.Tag ? this.Variant : null;",
    text! "        }",
    text! "",
    text! "        public void ReplaceAt(UInt32 tag, WireType wireType, IReader reader, bool shouldNotify) {",
    text! "            switch (tag) {",
    text! "                case 0: this.UpdateAndNotify(0, Raw.Deserialize(reader, this.Path.GetNested(0)), shouldNotify); break;",
    text! "                case 1: this.UpdateAndNotify(1, Attack.Deserialize(reader, this.Path.GetNested(1)), shouldNotify); break;",
    text! "                default: reader.SkipToEnd(); break;",
    text! "            }",
    text! "        }",
    text! "",
    text! "        public void ReplayListPush(IReader reader) { throw new NotSupportedException(); }",
    text! "        public void ReplayListPop() { throw new NotSupportedException(); }",
    text! "        public void ReplayMapRemove(UInt32 key) { throw new NotSupportedException(); }",
    text! "",
    text! "        private void UpdateAndNotify(UInt32 newTag, IState newVariant, bool shouldNotify) {",
    text! "            if (shouldNotify) {",
    text! "                var args = new VariantUpdateEventArgs<OldAction>(newTag, newVariant, this.Tag, this.Variant, this);",
    text! "                OldAction.OnUpdate?.Invoke(this, args);",
    text! "            }",
    text! "",
    text! "            this.Tag = newTag;",
    text! "            this.Variant = newVariant;",
    text! "        }",
    text! "",
    text! "        // Variant (0): Raw",
    text! "",
    text! "        public sealed partial class Raw : IState {",
    text! "            public Path Path { get; }",
    text! "            public StateList<Byte> LogEntries { get; private set; }",
    text! "",
    text! "            internal Raw(Path path = null) {",
    text! "                this.Path = path ?? Path.Root;",
    text! "                this.LogEntries = new StateList<Byte>(this.Path.GetNested(0));",
    text! "            }",
    text! "",
    text! "            public static event EventHandler<FieldUpdateEventArgs<StateList<Byte>, Raw>> OnLogEntriesUpdate;",
    text! "",
    text! "            public static void ClearLogEntriesUpdateHandlers() {",
    text! "                OnLogEntriesUpdate = null;",
    text! "            }",
    text! "",
    text! "            public static void ClearUpdateHandlers() {",
    text! "                OnLogEntriesUpdate = null;",
    text! "            }",
    text! "",
    text! "            internal static Raw Deserialize(IReader reader, Path path = null) {",
    text! "                var raw = new Raw(path);",
    text! "                raw.Replace(reader, shouldNotify: false);",
    text! "                return raw;",
    text! "            }",
    text! "",
    text! "            public WireType? GetWireType(UInt32 tag) {",
    text! "                switch (tag) {",
    text! "                    case 0: return WireType.Sized;",
    text! "                    default: return null;",
    text! "                }",
    text! "            }",
    text! "",
    text! "            public IState GetNested(UInt32 tag) {",
    text! "                switch (tag) {",
    text! "                    case 0: return this.LogEntries;",
    text! "                    default: return null;",
    text! "                }",
    text! "            }",
    text! "",
    text! "            public void ReplaceAt(UInt32 tag, WireType wireType, IReader reader, bool shouldNotify) {",
    text! "                switch (tag) {",
    text! "                    case 0: this.LogEntries = this.MaybeNotify(0, StateList<Byte>.Deserialize(reader, this.Path.GetNested(0)), this.LogEntries, OnLogEntriesUpdate, shouldNotify); break;",
    text! "                    default: reader.SkipField(wireType); break;",
    text! "                }",
    text! "            }",
    text! "",
    text! "            public void ReplayListPush(IReader reader) { throw new NotSupportedException(); }",
    text! "            public void ReplayListPop() { throw new NotSupportedException(); }",
    text! "            public void ReplayMapRemove(UInt32 key) { throw new NotSupportedException(); }",
    text! "",
    text! "            private TValue MaybeNotify<TValue>(",
    text! "                UInt32 tag,",
    text! "                TValue newValue,",
    text! "                TValue oldValue,",
    text! "                EventHandler<FieldUpdateEventArgs<TValue, Raw>> handler,",
    text! "                bool shouldNotify",
    text! "            ) {",
    text! "                if (shouldNotify) {",
    text! "                    var args = new FieldUpdateEventArgs<TValue, Raw>(tag, newValue, oldValue, this);",
    text! "                    handler?.Invoke(this, args);",
    text! "                }",
    text! "",
    text! "                return newValue;",
    text! "            }",
    text! "        }",
    text! "",
    text! "        // Variant (1): Attack",
    text! "",
    text! "        public sealed partial class Attack : IState {",
    text! "            public Path Path { get; }",
    text! "",
    text! "            public Byte Attacker { get; private set; }",
    text! "            public Byte Defender { get; private set; }",
    text! "            public StateList<OldHit> Hits { get; private set; }",
    text! "",
    text! "            internal Attack(Path path = null) {",
    text! "                this.Path = path ?? Path.Root;",
    text! "                this.Hits = new StateList<OldHit>(this.Path.GetNested(2));",
    text! "            }",
    text! "",
    text! "            public static event EventHandler<FieldUpdateEventArgs<Byte, Attack>> OnAttackerUpdate;",
    text! "            public static event EventHandler<FieldUpdateEventArgs<Byte, Attack>> OnDefenderUpdate;",
    text! "            public static event EventHandler<FieldUpdateEventArgs<StateList<OldHit>, Attack>> OnHitsUpdate;",
    text! "",
    text! "            public static void ClearAttackerUpdateHandlers() { OnAttackerUpdate = null; }",
    text! "            public static void ClearDefenderUpdateHandlers() { OnDefenderUpdate = null; }",
    text! "            public static void ClearHitsUpdateHandlers() { OnHitsUpdate = null; }",
    text! "",
    text! "            public static void ClearUpdateHandlers() {",
    text! "                OnAttackerUpdate = null;",
    text! "                OnDefenderUpdate = null;",
    text! "                OnHitsUpdate = null;",
    text! "            }",
    text! "",
    text! "            internal static Attack Deserialize(IReader reader, Path path = null) {",
    text! "                var attack = new Attack(path);",
    text! "                attack.Replace(reader, shouldNotify: false);",
    text! "                return attack;",
    text! "            }",
    text! "",
    text! "            public WireType? GetWireType(UInt32 tag) {",
    text! "                switch (tag) {",
    text! "                    case 0: return WireType.Varint;",
    text! "                    case 1: return WireType.Varint;",
    text! "                    case 2: return WireType.Sized;",
    text! "                    default: return null;",
    text! "                }",
    text! "            }",
    text! "",
    text! "            public IState GetNested(UInt32 tag) {",
    text! "                switch (tag) {",
    text! "                    case 2: return this.Hits;",
    text! "                    default: return null;",
    text! "                }",
    text! "            }",
    text! "",
    text! "            public void ReplaceAt(UInt32 tag, WireType wireType, IReader reader, bool shouldNotify) {",
    text! "                switch (tag) {",
    text! "                    case 0: this.Attacker = this.MaybeNotify(0, reader.ReadByte(), this.Attacker, OnAttackerUpdate, shouldNotify); break;",
    text! "                    case 1: this.Defender = this.MaybeNotify(1, reader.ReadByte(), this.Defender, OnDefenderUpdate, shouldNotify); break;",
    text! "                    case 2: this.Hits = this.MaybeNotify(2, StateList<OldHit>.Deserialize(reader, this.Path.GetNested(2)), this.Hits, OnHitsUpdate, shouldNotify); break;",
    text! "                    default: reader.SkipField(wireType); break;",
    text! "                }",
    text! "            }",
    text! "",
    text! "            public void ReplayListPush(IReader reader) { throw new NotSupportedException(); }",
    text! "            public void ReplayListPop() { throw new NotSupportedException(); }",
    text! "            public void ReplayMapRemove(UInt32 key) { throw new NotSupportedException(); }",
    text! "",
    text! "            private TValue MaybeNotify<TValue>(",
    text! "                UInt32 tag,",
    text! "                TValue newValue,",
    text! "                TValue oldValue,",
    text! "                EventHandler<FieldUpdateEventArgs<TValue, Attack>> handler,",
    text! "                bool shouldNotify",
    text! "            ) {",
    text! "                if (shouldNotify) {",
    text! "                    var args = new FieldUpdateEventArgs<TValue, Attack>(tag, newValue, oldValue, this);",
    text! "                    handler?.Invoke(this, args);",
    text! "                }",
    text! "",
    text! "                return newValue;",
    text! "            }",
    text! "        }",
    text! "    }",
    text! "}"])

/-! ## `steit-csharp/tests/OldHit.cs` -/

def metaOldHit : MessageMeta := .struct (st "OldHit" [] [fld "before_attacking" (boxOf (mref "OldAction")) 0,
  fld "before_damaging" (boxOf (mref "OldAction")) 1, fld "damaging" (boxOf (mref "OldAction")) 2,
  fld "after_damaging" (boxOf (mref "OldAction")) 3, fld "after_attacking" (boxOf (mref "OldAction")) 4, fld "dummy" tI32 5])

#guard source ascii ⟨lit! "Just.To.Test", []⟩ metaOldHit = some (unlines [
    text! "using System;",
    text! "",
    text! "using Steit.Builtins;",
    text! "using Steit.Codec;",
    text! "using Steit.Collections;",
    text! "using Steit.State;",
    text! "using Steit.State.Event;",
    text! "",
    text! "namespace Just.To.Test {",
    text! "    public sealed partial class OldHit : IState {",
    text! "        public Path Path { get; }",
    text! "",
    text! "        public OldAction BeforeAttacking { get; private set; }",
    text! "        public OldAction BeforeDamaging { get; private set; }",
    text! "        public OldAction Damaging { get; private set; }",
    text! "        public OldAction AfterDamaging { get; private set; }",
    text! "        public OldAction AfterAttacking { get; private set; }",
    text! "        public Int32 Dummy { get; private set; }",
    text! "",
    text! "        public OldHit(Path path = null) {",
    text! "            this.Path = path ?? Path.Root;",
    text! "            this.BeforeAttacking = new OldAction(this.Path.GetNested(0));",
    text! "            this.BeforeDamaging = new OldAction(this.Path.GetNested(1));",
    text! "            this.Damaging = new OldAction(this.Path.GetNested(2));",
    text! "            this.AfterDamaging = new OldAction(this.Path.GetNested(3));",
    text! "            this.AfterAttacking = new OldAction(this.Path.GetNested(4));",
    text! "        }",
    text! "",
    text! "        public static event EventHandler<FieldUpdateEventArgs<OldAction, OldHit>> OnBeforeAttackingUpdate;",
    text! "        public static event EventHandler<FieldUpdateEventArgs<OldAction, OldHit>> OnBeforeDamagingUpdate;",
    text! "        public static event EventHandler<FieldUpdateEventArgs<OldAction, OldHit>> OnDamagingUpdate;",
    text! "        public static event EventHandler<FieldUpdateEventArgs<OldAction, OldHit>> OnAfterDamagingUpdate;",
    text! "        public static event EventHandler<FieldUpdateEventArgs<OldAction, OldHit>> OnAfterAttackingUpdate;",
    text! "        public static event EventHandler<FieldUpdateEventArgs<Int32, OldHit>> OnDummyUpdate;",
    text! "",
    text! "        public static void ClearBeforeAttackingUpdateHandlers() { OnBeforeAttackingUpdate = null; }",
    text! "        public static void ClearBeforeDamagingUpdateHandlers() { OnBeforeDamagingUpdate = null; }",
    text! "        public static void ClearDamagingUpdateHandlers() { OnDamagingUpdate = null; }",
    text! "        public static void ClearAfterDamagingUpdateHandlers() { OnAfterDamagingUpdate = null; }",
    text! "        public static void ClearAfterAttackingUpdateHandlers() { OnAfterAttackingUpdate = null; }",
    text! "        public static void ClearDummyUpdateHandlers() { OnDummyUpdate = null; }",
    text! "",
    text! "        public static void ClearUpdateHandlers() {",
    text! "            OnBeforeAttackingUpdate = null;",
    text! "            OnBeforeDamagingUpdate = null;",
    text! "            OnDamagingUpdate = null;",
    text! "            OnAfterDamagingUpdate = null;",
    text! "            OnAfterAttackingUpdate = null;",
    text! "            OnDummyUpdate = null;",
    text! "        }",
    text! "",
    text! "        public static OldHit Deserialize(IReader reader, Path path = null) {",
    text! "            var oldHit = new OldHit(path);",
    text! "            oldHit.Replace(reader, shouldNotify: false);",
    text! "            return oldHit;",
    text! "        }",
    text! "",
    text! "        public WireType? GetWireType(UInt32 tag) {",
    text! "            switch (tag) {",
    text! "                case 0: return WireType.Sized;",
    text! "                case 1: return WireType.Sized;",
    text! "                case 2: return WireType.Sized;",
    text! "                case 3: return WireType.Sized;",
    text! "                case 4: return WireType.Sized;",
    text! "                case 5: return WireType.Varint;",
    text! "                default: return null;",
    text! "            }",
    text! "        }",
    text! "",
    text! "        public IState GetNested(UInt32 tag) {",
    text! "            switch (tag) {",
    text! "                case 0: return this.BeforeAttacking;",
    text! "                case 1: return this.BeforeDamaging;",
    text! "                case 2: return this.Damaging;",
    text! "                case 3: return this.AfterDamaging;",
    text! "                case 4: return this.AfterAttacking;",
    text! "                default: return null;",
    text! "            }",
    text! "        }",
    text! "",
    text! "        public void ReplaceAt(UInt32 tag, WireType wireType, IReader reader, bool shouldNotify) {",
    text! "            switch (tag) {",
    text! "                case 0: this.BeforeAttacking = this.MaybeNotify(0, OldAction.Deserialize(reader, this.Path.GetNested(0)), this.BeforeAttacking, OnBeforeAttackingUpdate, shouldNotify); break;",
    text! "                case 1: this.BeforeDamaging = this.MaybeNotify(1, OldAction.Deserialize(reader, this.Path.GetNested(1)), this.BeforeDamaging, OnBeforeDamagingUpdate, shouldNotify); break;",
    text! "                case 2: this.Damaging = this.MaybeNotify(2, OldAction.Deserialize(reader, this.Path.GetNested(2)), this.Damaging, OnDamagingUpdate, shouldNotify); break;",
    text! "                case 3: this.AfterDamaging = this.MaybeNotify(3, OldAction.Deserialize(reader, this.Path.GetNested(3)), this.AfterDamaging, OnAfterDamagingUpdate, shouldNotify); break;",
    text! "                case 4: this.AfterAttacking = this.MaybeNotify(4, OldAction.Deserialize(reader, this.Path.GetNested(4)), this.AfterAttacking, OnAfterAttackingUpdate, shouldNotify); break;",
    text! "                case 5: this.Dummy = this.MaybeNotify(5, reader.ReadInt32(), this.Dummy, OnDummyUpdate, shouldNotify); break;",
    text! "                default: reader.SkipField(wireType); break;",
    text! "            }",
    text! "        }",
    text! "",
    text! "        public void ReplayListPush(IReader reader) { throw new NotSupportedException(); }",
    text! "        public void ReplayListPop() { throw new NotSupportedException(); }",
    text! "        public void ReplayMapRemove(UInt32 key) { throw new NotSupportedException(); }",
    text! "",
    text! "        private TValue MaybeNotify<TValue>(",
    text! "            UInt32 tag,",
    text! "            TValue newValue,",
    text! "            TValue oldValue,",
    text! "            EventHandler<FieldUpdateEventArgs<TValue, OldHit>> handler,",
    text! "            bool shouldNotify",
    text! "        ) {",
    text! "            if (shouldNotify) {",
    text! "                var args = new FieldUpdateEventArgs<TValue, OldHit>(tag, newValue, oldValue, this);",
    text! "                handler?.Invoke(this, args);",
    text! "            }",
    text! "",
    text! "            return newValue;",
    text! "        }",
    text! "    }",
    text! "}"])

/-! ## `steit-csharp/tests/Hello.cs` -/

def metaHello : MessageMeta := .struct (st "Hello" [] [fld "numbers" (listOf tI32) 0, fld "others" (vecOf tI32) 1])

#guard source ascii ⟨lit! "Just.To.Test", []⟩ metaHello = some (unlines [
    text! "using System;",
    text! "",
    text! "using Steit.Builtins;",
    text! "using Steit.Codec;",
    text! "using Steit.Collections;",
    text! "using Steit.State;",
    text! "using Steit.State.Event;",
    text! "",
    text! "namespace Just.To.Test {",
    text! "    public sealed partial class Hello : IState {",
    text! "        public Path Path { get; }",
    text! "",
    text! "        public StateList<Int32> Numbers { get; private set; }",
    text! "        public Vector<Int32> Others { get; private set; }",
    text! "",
    text! "        public Hello(Path path = null) {",
    text! "            this.Path = path ?? Path.Root;",
    text! "            this.Numbers = new StateList<Int32>(this.Path.GetNested(0));",
    text! "            this.Others = new Vector<Int32>(this.Path.GetNested(1));",
    text! "        }",
    text! "",
    text! "        public static event EventHandler<FieldUpdateEventArgs<StateList<Int32>, Hello>> OnNumbersUpdate;",
    text! "        public static event EventHandler<FieldUpdateEventArgs<Vector<Int32>, Hello>> OnOthersUpdate;",
    text! "",
    text! "        public static void ClearNumbersUpdateHandlers() { OnNumbersUpdate = null; }",
    text! "        public static void ClearOthersUpdateHandlers() { OnOthersUpdate = null; }",
    text! "",
    text! "        public static void ClearUpdateHandlers() {",
    text! "            OnNumbersUpdate = null;",
    text! "            OnOthersUpdate = null;",
    text! "        }",
    text! "",
    text! "        public static Hello Deserialize(IReader reader, Path path = null) {",
    text! "            var hello = new Hello(path);",
    text! "            hello.Replace(reader, shouldNotify: false);",
    text! "            return hello;",
    text! "        }",
    text! "",
    text! "        public WireType? GetWireType(UInt32 tag) {",
    text! "            switch (tag) {",
    text! "                case 0: return WireType.Sized;",
    text! "                case 1: return WireType.Sized;",
    text! "                default: return null;",
    text! "            }",
    text! "        }",
    text! "",
    text! "        public IState GetNested(UInt32 tag) {",
    text! "            switch (tag) {",
    text! "                case 0: return this.Numbers;",
    text! "                case 1: return this.Others;",
    text! "                default: return null;",
    text! "            }",
    text! "        }",
    text! "",
    text! "        public void ReplaceAt(UInt32 tag, WireType wireType, IReader reader, bool shouldNotify) {",
    text! "            switch (tag) {",
    text! "                case 0: this.Numbers = this.MaybeNotify(0, StateList<Int32>.Deserialize(reader, this.Path.GetNested(0)), this.Numbers, OnNumbersUpdate, shouldNotify); break;",
    text! "                case 1: this.Others = this.MaybeNotify(1, Vector<Int32>.Deserialize(reader, this.Path.GetNested(1)), this.Others, OnOthersUpdate, shouldNotify); break;",
    text! "                default: reader.SkipField(wireType); break;",
    text! "            }",
    text! "        }",
    text! "",
    text! "        public void ReplayListPush(IReader reader) { throw new NotSupportedException(); }",
    text! "        public void ReplayListPop() { throw new NotSupportedException(); }",
    text! "        public void ReplayMapRemove(UInt32 key) { throw new NotSupportedException(); }",
    text! "",
    text! "        private TValue MaybeNotify<TValue>(",
    text! "            UInt32 tag,",
    text! "            TValue newValue,",
    text! "            TValue oldValue,",
    text! "            EventHandler<FieldUpdateEventArgs<TValue, Hello>> handler,",
    text! "            bool shouldNotify",
    text! "        ) {",
    text! "            if (shouldNotify) {",
    text! "                var args = new FieldUpdateEventArgs<TValue, Hello>(tag, newValue, oldValue, this);",
    text! "                handler?.Invoke(this, args);",
    text! "            }",
    text! "",
    text! "            return newValue;",
    text! "        }",
    text! "    }",
    text! "}"])

/-! ## `steit-csharp/tests/Multicase.cs` -/

def metaMulticase : MessageMeta := .enum ⟨nm "Multicase", [], [vr "FirstCase" 0 [fld "counter" tI32 0, fld "enabled" tBool 1],
  vr "SecondCase" 1 [fld "counter" tI32 0, fld "enabled" tBool 1]], false⟩

#guard source ascii ⟨lit! "Just.To.Test", []⟩ metaMulticase = some (unlines [
    text! "using System;",
    text! "",
    text! "using Steit.Builtins;",
    text! "using Steit.Codec;",
    text! "using Steit.Collections;",
    text! "using Steit.State;",
    text! "using Steit.State.Event;",
    text! "",
    text! "namespace Just.To.Test {",
    text! "    public sealed partial class Multicase : IEnumState {",
    text! "        public const UInt32 FirstCaseTag = 0;",
    text! "        public const UInt32 SecondCaseTag = 1;",
    text! "",
    text! "        public Path Path { get; }",
    text! "",
    text! "        public UInt32 Tag { get; private set; }",
    text! "        public IState Variant { get; private set; }",
    text! "",
    text! "        public FirstCase FirstCaseVariant { get { return this.Variant as FirstCase; } }",
    text! "        public SecondCase SecondCaseVariant { get { return this.Variant as SecondCase; } }",
    text! "",
    text! "        public Multicase(Path path = null) : this(path, 0) { }",
    text! "",
    text! "        public Multicase(Path path, UInt32 tag) {",
    text! "            this.Path = path ?? Path.Root;",
    text! "            this.Tag = tag;",
    text! "",
    text! "            switch (tag) {",
    text! "                case 0: this.Variant = new FirstCase(this.Path.GetNested(0)); break;",
    text! "                case 1: this.Variant = new SecondCase(this.Path.GetNested(1)); break;",
    text! "                default: this.Variant = new FirstCase(this.Path.GetNested(0)); break;",
    text! "            }",
    text! "        }",
    text! "",
    text! "        public static Multicase NewFirstCase(Path path = null) { return new Multicase(path, 0); }",
    text! "        public static Multicase NewSecondCase(Path path = null) { return new Multicase(path, 1); }",
    text! "",
    text! "        public static event EventHandler<VariantUpdateEventArgs<Multicase>> OnUpdate;",
    text! "",
    text! "        public static void ClearUpdateHandlers() {",
    text! "            OnUpdate = null;",
    text! "        }",
    text! "",
    text! "        public static Multicase Deserialize(IReader reader, Path path = null) {",
    text! "            var multicase = new Multicase(path);",
    text! "            multicase.Replace(reader, shouldNotify: false);",
    text! "            return multicase;",
    text! "        }",
    text! "",
    text! "        public WireType? GetWireType(UInt32 tag) {",
    text! "            switch (tag) {",
    text! "                case 0: return WireType.Sized;",
    text! "                case 1: return WireType.Sized;",
    text! "                default: return null;",
    text! "            }",
    text! "        }",
    text! "",
    text! "        public IState GetNested(UInt32 tag) {",
    text! "            return tag == this.Tag ? this.Variant : null;",
    text! "        }",
    text! "",
    text! "        public void ReplaceAt(UInt32 tag, WireType wireType, IReader reader, bool shouldNotify) {",
    text! "            switch (tag) {",
    text! "                case 0: this.UpdateAndNotify(0, FirstCase.Deserialize(reader, this.Path.GetNested(0)), shouldNotify); break;",
    text! "                case 1: this.UpdateAndNotify(1, SecondCase.Deserialize(reader, this.Path.GetNested(1)), shouldNotify); break;",
    text! "                default: reader.SkipToEnd(); break;",
    text! "            }",
    text! "        }",
    text! "",
    text! "        public void ReplayListPush(IReader reader) { throw new NotSupportedException(); }",
    text! "        public void ReplayListPop() { throw new NotSupportedException(); }",
    text! "        public void ReplayMapRemove(UInt32 key) { throw new NotSupportedException(); }",
    text! "",
    text! "        private void UpdateAndNotify(UInt32 newTag, IState newVariant, bool shouldNotify) {",
    text! "            if (shouldNotify) {",
    text! "                var args = new VariantUpdateEventArgs<Multicase>(newTag, newVariant, this.Tag, this.Variant, this);",
    text! "                Multicase.OnUpdate?.Invoke(this, args);",
    text! "            }",
    text! "",
    text! "            this.Tag = newTag;",
    text! "            this.Variant = newVariant;",
    text! "        }",
    text! "",
    text! "        // Variant (0): FirstCase",
    text! "",
    text! "        public sealed partial class FirstCase : IState {",
    text! "            public Path Path { get; }",
    text! "",
    text! "            public Int32 Counter { get; private set; }",
    text! "            public Boolean Enabled { get; private set; }",
    text! "",
    text! "            internal FirstCase(Path path = null) {",
    text! "                this.Path = path ?? Path.Root;",
    text! "            }",
    text! "",
    text! "            public static event EventHandler<FieldUpdateEventArgs<Int32, FirstCase>> OnCounterUpdate;",
    text! "            public static event EventHandler<FieldUpdateEventArgs<Boolean, FirstCase>> OnEnabledUpdate;",
    text! "",
    text! "            public static void ClearCounterUpdateHandlers() { OnCounterUpdate = null; }",
    text! "            public static void ClearEnabledUpdateHandlers() { OnEnabledUpdate = null; }",
    text! "",
    text! "            public static void ClearUpdateHandlers() {",
    text! "                OnCounterUpdate = null;",
    text! "                OnEnabledUpdate = null;",
    text! "            }",
    text! "",
    text! "            internal static FirstCase Deserialize(IReader reader, Path path = null) {",
    text! "                var firstCase = new FirstCase(path);",
    text! "                firstCase.Replace(reader, shouldNotify: false);",
    text! "                return firstCase;",
    text! "            }",
    text! "",
    text! "            public WireType? GetWireType(UInt32 tag) {",
    text! "                switch (tag) {",
    text! "                    case 0: return WireType.Varint;",
    text! "                    case 1: return WireType.Varint;",
    text! "                    default: return null;",
    text! "                }",
    text! "            }",
    text! "",
    text! "            public IState GetNested(UInt32 tag) {",
    text! "                switch (tag) {",
    text! "                    default: return null;",
    text! "                }",
    text! "            }",
    text! "",
    text! "            public void ReplaceAt(UInt32 tag, WireType wireType, IReader reader, bool shouldNotify) {",
    text! "                switch (tag) {",
    text! "                    case 0: this.Counter = this.MaybeNotify(0, reader.ReadInt32(), this.Counter, OnCounterUpdate, shouldNotify); break;",
    text! "                    case 1: this.Enabled = this.MaybeNotify(1, reader.ReadBoolean(), this.Enabled, OnEnabledUpdate, shouldNotify); break;",
    text! "                    default: reader.SkipField(wireType); break;",
    text! "                }",
    text! "            }",
    text! "",
    text! "            public void ReplayListPush(IReader reader) { throw new NotSupportedException(); }",
    text! "            public void ReplayListPop() { throw new NotSupportedException(); }",
    text! "            public void ReplayMapRemove(UInt32 key) { throw new NotSupportedException(); }",
    text! "",
    text! "            private TValue MaybeNotify<TValue>(",
    text! "                UInt32 tag,",
    text! "                TValue newValue,",
    text! "                TValue oldValue,",
    text! "                EventHandler<FieldUpdateEventArgs<TValue, FirstCase>> handler,",
    text! "                bool shouldNotify",
    text! "            ) {",
    text! "                if (shouldNotify) {",
    text! "                    var args = new FieldUpdateEventArgs<TValue, FirstCase>(tag, newValue, oldValue, this);",
    text! "                    handler?.Invoke(this, args);",
    text! "                }",
    text! "",
    text! "                return newValue;",
    text! "            }",
    text! "        }",
    text! "",
    text! "        // Variant (1): SecondCase",
    text! "",
    text! "        public sealed partial class SecondCase : IState {",
    text! "            public Path Path { get; }",
    text! "",
    text! "            public Int32 Counter { get; private set; }",
    text! "            public Boolean Enabled { get; private set; }",
    text! "",
    text! "            internal SecondCase(Path path = null) {",
    text! "                this.Path = path ?? Path.Root;",
    text! "            }",
    text! "",
    text! "            public static event EventHandler<FieldUpdateEventArgs<Int32, SecondCase>> OnCounterUpdate;",
    text! "            public static event EventHandler<FieldUpdateEventArgs<Boolean, SecondCase>> OnEnabledUpdate;",
    text! "",
    text! "            public static void ClearCounterUpdateHandlers() { OnCounterUpdate = null; }",
    text! "            public static void ClearEnabledUpdateHandlers() { OnEnabledUpdate = null; }",
    text! "",
    text! "            public static void ClearUpdateHandlers() {",
    text! "                OnCounterUpdate = null;",
    text! "                OnEnabledUpdate = null;",
    text! "            }",
    text! "",
    text! "            internal static SecondCase Deserialize(IReader reader, Path path = null) {",
    text! "                var secondCase = new SecondCase(path);",
    text! "                secondCase.Replace(reader, shouldNotify: false);",
    text! "                return secondCase;",
    text! "            }",
    text! "",
    text! "            public WireType? GetWireType(UInt32 tag) {",
    text! "                switch (tag) {",
    text! "                    case 0: return WireType.Varint;",
    text! "                    case 1: return WireType.Varint;",
    text! "                    default: return null;",
    text! "                }",
    text! "            }",
    text! "",
    text! "            public IState GetNested(UInt32 tag) {",
    text! "                switch (tag) {",
    text! "                    default: return null;",
    text! "                }",
    text! "            }",
    text! "",
    text! "            public void ReplaceAt(UInt32 tag, WireType wireType, IReader reader, bool shouldNotify) {",
    text! "                switch (tag) {",
    text! "                    case 0: this.Counter = this.MaybeNotify(0, reader.ReadInt32(), this.Counter, OnCounterUpdate, shouldNotify); break;",
    text! "                    case 1: this.Enabled = this.MaybeNotify(1, reader.ReadBoolean(), this.Enabled, OnEnabledUpdate, shouldNotify); break;",
    text! "                    default: reader.SkipField(wireType); break;",
    text! "                }",
    text! "            }",
    text! "",
    text! "            public void ReplayListPush(IReader reader) { throw new NotSupportedException(); }",
    text! "            public void ReplayListPop() { throw new NotSupportedException(); }",
    text! "            public void ReplayMapRemove(UInt32 key) { throw new NotSupportedException(); }",
    text! "",
    text! "            private TValue MaybeNotify<TValue>(",
    text! "                UInt32 tag,",
    text! "                TValue newValue,",
    text! "                TValue oldValue,",
    text! "                EventHandler<FieldUpdateEventArgs<TValue, SecondCase>> handler,",
    text! "                bool shouldNotify",
    text! "            ) {",
    text! "                if (shouldNotify) {",
    text! "                    var args = new FieldUpdateEventArgs<TValue, SecondCase>(tag, newValue, oldValue, this);",
    text! "                    handler?.Invoke(this, args);",
    text! "                }",
    text! "",
    text! "                return newValue;",
    text! "            }",
    text! "        }",
    text! "    }",
    text! "}"])

/-! ## `steit-csharp/tests/Woof.cs` -/

def metaWoof : MessageMeta := .struct (st "Woof" [] [fld "map" (mapOf tU16 tI32) 0])

#guard source ascii ⟨lit! "Just.To.Test", []⟩ metaWoof = some (unlines [
    text! "using System;",
    text! "",
    text! "using Steit.Builtins;",
    text! "using Steit.Codec;",
    text! "using Steit.Collections;",
    text! "using Steit.State;",
    text! "using Steit.State.Event;",
    text! "",
    text! "namespace Just.To.Test {",
    text! "    public sealed partial class Woof : IState {",
    text! "        public Path Path { get; }",
    text! "        public StateMap<Int32> Map { get; private set; }",
    text! "",
    text! "        public Woof(Path path = null) {",
    text! "            this.Path = path ?? Path.Root;",
    text! "            this.Map = new StateMap<Int32>(this.Path.GetNested(0));",
    text! "        }",
    text! "",
    text! "        public static event EventHandler<FieldUpdateEventArgs<StateMap<Int32>, Woof>> OnMapUpdate;",
    text! "",
    text! "        public static void ClearMapUpdateHandlers() {",
    text! "            OnMapUpdate = null;",
    text! "        }",
    text! "",
    text! "        public static void ClearUpdateHandlers() {",
    text! "            OnMapUpdate = null;",
    text! "        }",
    text! "",
    text! "        public static Woof Deserialize(IReader reader, Path path = null) {",
    text! "            var woof = new Woof(path);",
    text! "            woof.Replace(reader, shouldNotify: false);",
    text! "            return woof;",
    text! "        }",
    text! "",
    text! "        public WireType? GetWireType(UInt32 tag) {",
    text! "            switch (tag) {",
    text! "                case 0: return WireType.Sized;",
    text! "                default: return null;",
    text! "            }",
    text! "        }",
    text! "",
    text! "        public IState GetNested(UInt32 tag) {",
    text! "            switch (tag) {",
    text! "                case 0: return this.Map;",
    text! "                default: return null;",
    text! "            }",
    text! "        }",
    text! "",
    text! "        public void ReplaceAt(UInt32 tag, WireType wireType, IReader reader, bool shouldNotify) {",
    text! "            switch (tag) {",
    text! "                case 0: this.Map = this.MaybeNotify(0, StateMap<Int32>.Deserialize(reader, this.Path.GetNested(0)), this.Map, OnMapUpdate, shouldNotify); break;",
    text! "                default: reader.SkipField(wireType); break;",
    text! "            }",
    text! "        }",
    text! "",
    text! "        public void ReplayListPush(IReader reader) { throw new NotSupportedException(); }",
    text! "        public void ReplayListPop() { throw new NotSupportedException(); }",
    text! "        public void ReplayMapRemove(UInt32 key) { throw new NotSupportedException(); }",
    text! "",
    text! "        private TValue MaybeNotify<TValue>(",
    text! "            UInt32 tag,",
    text! "            TValue newValue,",
    text! "            TValue oldValue,",
    text! "            EventHandler<FieldUpdateEventArgs<TValue, Woof>> handler,",
    text! "            bool shouldNotify",
    text! "        ) {",
    text! "            if (shouldNotify) {",
    text! "                var args = new FieldUpdateEventArgs<TValue, Woof>(tag, newValue, oldValue, this);",
    text! "                handler?.Invoke(this, args);",
    text! "            }",
    text! "",
    text! "            return newValue;",
    text! "        }",
    text! "    }",
    text! "}"])

end Steit.Conformance
