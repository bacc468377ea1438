import Verif.Model.LogEntryFile

/-!
# `steit-csharp/src/Builtins/Maybe.cs`

This class was generated, too, and is part of the client; this is its text, character by character.
-/

namespace Steit.Conformance

open Gen

/-- `steit-csharp/src/Builtins/Maybe.cs:1-208`, the whole file. -/
def maybeFile : Text := unlines [
  text! "using System;",
  text! "",
  text! "using Steit.Builtins;",
  text! "using Steit.Codec;",
  text! "using Steit.Collections;",
  text! "using Steit.State;",
  text! "using Steit.State.Event;",
  text! "",
  text! "namespace Steit.Builtins {",
  text! "    public sealed partial class Maybe<T> : IEnumState {",
  text! "        public const UInt32 NoneTag = 0;",
  text! "        public const UInt32 SomeTag = 1;",
  text! "",
  text! "        public Path Path { get; }",
  text! "",
  text! "        public UInt32 Tag { get; private set; }",
  text! "        public IState Variant { get; private set; }",
  text! "",
  text! "        public None NoneVariant { get { return this.Variant as None; } }",
  text! "        public Some SomeVariant { get { return this.Variant as Some; } }",
  text! "",
  text! "        public Maybe(Path path = null) : this(path, 0) { }",
  text! "",
  text! "        public Maybe(Path path, UInt32 tag) {",
  text! "            StateFactory.ValidateType(typeof(T));",
  text! "            this.Path = path ?? Path.Root;",
  text! "            this.Tag = tag;",
  text! "",
  text! "            switch (tag) {",
  text! "                case 0: this.Variant = new None(this.Path.GetNested(0)); break;",
  text! "                case 1: this.Variant = new Some(this.Path.GetNested(1)); break;",
  text! "                default: this.Variant = new None(this.Path.GetNested(0)); break;",
  text! "            }",
  text! "        }",
  text! "",
  text! "        public static Maybe NewNone(Path path = null) { return new Maybe(path, 0); }",
  text! "        public static Maybe NewSome(Path path = null) { return new Maybe(path, 1); }",
  text! "",
  text! "        public static event EventHandler<VariantUpdateEventArgs<Maybe<T>>> OnUpdate;",
  text! "",
  text! "        public static void ClearUpdateHandlers() {",
  text! "            OnUpdate = null;",
  text! "        }",
  text! "",
  text! "        public static Maybe<T> Deserialize(IReader reader, Path path = null) {",
  text! "            var maybe = new Maybe<T>(path);",
  text! "            maybe.Replace(reader, shouldNotify: false);",
  text! "            return maybe;",
  text! "        }",
  text! "",
  text! "        public WireType? GetWireType(UInt32 tag) {",
  text! "            switch (tag) {",
  text! "                case 0: return WireType.Sized;",
  text! "                case 1: return WireType.Sized;",
  text! "                default: return null;",
  text! "            }",
  text! "        }",
  text! "",
  text! "        public IState GetNested(UInt32 tag) {",
  text! "            return tag == this.Tag ? this.Variant : null;",
  text! "        }",
  text! "",
  text! "        public void ReplaceAt(UInt32 tag, WireType wireType, IReader reader, bool shouldNotify) {",
  text! "            switch (tag) {",
  text! "                case 0: this.UpdateAndNotify(0, None.Deserialize(reader, this.Path.GetNested(0)), shouldNotify); break;",
  text! "                case 1: this.UpdateAndNotify(1, Some.Deserialize(reader, this.Path.GetNested(1)), shouldNotify); break;",
  text! "                default: reader.SkipToEnd(); break;",
  text! "            }",
  text! "        }",
  text! "",
  text! "        public void ReplayListPush(IReader reader) { throw new NotSupportedException(); }",
  text! "        public void ReplayListPop() { throw new NotSupportedException(); }",
  text! "        public void ReplayMapRemove(UInt32 key) { throw new NotSupportedException(); }",
  text! "",
  text! "        private void UpdateAndNotify(UInt32 newTag, IState newVariant, bool shouldNotify) {",
  text! "            if (shouldNotify) {",
  text! "                var args = new VariantUpdateEventArgs<Maybe<T>>(newTag, newVariant, this.Tag, this.Variant, this);",
  text! "                Maybe<T>.OnUpdate?.Invoke(this, args);",
  text! "            }",
  text! "",
  text! "            this.Tag = newTag;",
  text! "            this.Variant = newVariant;",
  text! "        }",
  text! "",
  text! "        // Variant (0): None",
  text! "",
  text! "        public sealed partial class None : IState {",
  text! "            public Path Path { get; }",
  text! "",
  text! "            internal None(Path path = null) {",
  text! "                this.Path = path ?? Path.Root;",
  text! "            }",
  text! "",
  text! "            public static void ClearUpdateHandlers() { }",
  text! "",
  text! "            internal static None Deserialize(IReader reader, Path path = null) {",
  text! "                var none = new None(path);",
  text! "                none.Replace(reader, shouldNotify: false);",
  text! "                return none;",
  text! "            }",
  text! "",
  text! "            public WireType? GetWireType(UInt32 tag) {",
  text! "                switch (tag) {",
  text! "                    default: return null;",
  text! "                }",
  text! "            }",
  text! "",
  text! "            public IState GetNested(UInt32 tag) {",
  text! "                switch (tag) {",
  text! "                    default: return null;",
  text! "                }",
  text! "            }",
  text! "",
  text! "            public void ReplaceAt(UInt32 tag, WireType wireType, IReader reader, bool shouldNotify) {",
  text! "                switch (tag) {",
  text! "                    default: reader.SkipField(wireType); break;",
  text! "                }",
  text! "            }",
  text! "",
  text! "            public void ReplayListPush(IReader reader) { throw new NotSupportedException(); }",
  text! "            public void ReplayListPop() { throw new NotSupportedException(); }",
  text! "            public void ReplayMapRemove(UInt32 key) { throw new NotSupportedException(); }",
  text! "",
  text! "            private TValue MaybeNotify<TValue>(",
  text! "                UInt32 tag,",
  text! "                TValue newValue,",
  text! "                TValue oldValue,",
  text! "                EventHandler<FieldUpdateEventArgs<TValue, None>> handler,",
  text! "                bool shouldNotify",
  text! "            ) {",
  text! "                if (shouldNotify) {",
  text! "                    var args = new FieldUpdateEventArgs<TValue, None>(tag, newValue, oldValue, this);",
  text! "                    handler?.Invoke(this, args);",
  text! "                }",
  text! "",
  text! "                return newValue;",
  text! "            }",
  text! "        }",
  text! "",
  text! "        // Variant (1): Some",
  text! "",
  text! "        public sealed partial class Some : IState {",
  text! "            public Path Path { get; }",
  text! "            public T F0 { get; private set; }",
  text! "",
  text! "            internal Some(Path path = null) {",
  text! "                this.Path = path ?? Path.Root;",
  text! "                this.F0 = StateFactory.Construct<T>(this.Path.GetNested(0));",
  text! "            }",
  text! "",
  text! "            public static event EventHandler<FieldUpdateEventArgs<T, Some>> OnF0Update;",
  text! "",
  text! "            public static void ClearF0UpdateHandlers() {",
  text! "                OnF0Update = null;",
  text! "            }",
  text! "",
  text! "            public static void ClearUpdateHandlers() {",
  text! "                OnF0Update = null;",
  text! "            }",
  text! "",
  text! "            internal static Some Deserialize(IReader reader, Path path = null) {",
  text! "                var some = new Some(path);",
  text! "                some.Replace(reader, shouldNotify: false);",
  text! "                return some;",
  text! "            }",
  text! "",
  text! "            public WireType? GetWireType(UInt32 tag) {",
  text! "                switch (tag) {",
  text! "                    case 0: return StateFactory.IsStateType(typeof(T)) ? WireType.Sized : WireType.Varint;",
  text! "                    default: return null;",
  text! "                }",
  text! "            }",
  text! "",
  text! "            public IState GetNested(UInt32 tag) {",
  text! "                switch (tag) {",
  text! "                    case 0: return this.F0 as IState;",
  text! "                    default: return null;",
  text! "                }",
  text! "            }",
  text! "",
  text! "            public void ReplaceAt(UInt32 tag, WireType wireType, IReader reader, bool shouldNotify) {",
  text! "                switch (tag) {",
  text! "                    case 0: this.F0 = this.MaybeNotify(0, StateFactory.Deserialize<T>(reader, this.Path, 0), this.F0, OnF0Update, shouldNotify); break;",
  text! "                    default: reader.SkipField(wireType); break;",
  text! "                }",
  text! "            }",
  text! "",
  text! "            public void ReplayListPush(IReader reader) { throw new NotSupportedException(); }",
  text! "            public void ReplayListPop() { throw new NotSupportedException(); }",
  text! "            public void ReplayMapRemove(UInt32 key) { throw new NotSupportedException(); }",
  text! "",
  text! "            private TValue MaybeNotify<TValue>(",
  text! "                UInt32 tag,",
  text! "                TValue newValue,",
  text! "                TValue oldValue,",
  text! "                EventHandler<FieldUpdateEventArgs<TValue, Some>> handler,",
  text! "                bool shouldNotify",
  text! "            ) {",
  text! "                if (shouldNotify) {",
  text! "                    var args = new FieldUpdateEventArgs<TValue, Some>(tag, newValue, oldValue, this);",
  text! "                    handler?.Invoke(this, args);",
  text! "                }",
  text! "",
  text! "                return newValue;",
  text! "            }",
  text! "        }",
  text! "    }",
  text! "}"]

end Steit.Conformance
