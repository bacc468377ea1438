import Verif.Model.Writer
import Lean.Elab.Term

/-!
# `steit-csharp/src/State/LogEntry.cs`

The client reads log entries by this class. It was generated and is part of the repository; this is its text, character by character.
-/

namespace Steit.Conformance

open Gen

open Lean Elab Term in
/-- A string literal as a list of characters; notation of ours, nothing in `/repo`. -/
elab "text!" s:str : term => return toExpr s.getString.toList

/-- Lines, each ended by a newline, as in all files of `steit-csharp/src`. -/
def unlines : List Text → Text
  | [] => []
  | l :: ls => l ++ '\n' :: unlines ls

/-- `steit-csharp/src/State/LogEntry.cs:1-387`, the whole file. -/
def logEntryFile : Text := unlines [
  text! "using System;",
  text! "",
  text! "using Steit.Builtins;",
  text! "using Steit.Codec;",
  text! "using Steit.Collections;",
  text! "using Steit.State;",
  text! "using Steit.State.Event;",
  text! "",
  text! "namespace Steit.State {",
  text! "    public sealed partial class LogEntry : IEnumState {",
  text! "        public const UInt32 UpdateTag = 0;",
  text! "        public const UInt32 ListPushTag = 8;",
  text! "        public const UInt32 ListPopTag = 9;",
  text! "        public const UInt32 MapRemoveTag = 12;",
  text! "",
  text! "        public Path Path { get; }",
  text! "",
  text! "        public UInt32 Tag { get; private set; }",
  text! "        public IState Variant { get; private set; }",
  text! "",
  text! "        public Update UpdateVariant { get { return this.Variant as Update; } }",
  text! "        public ListPush ListPushVariant { get { return this.Variant as ListPush; } }",
  text! "        public ListPop ListPopVariant { get { return this.Variant as ListPop; } }",
  text! "        public MapRemove MapRemoveVariant { get { return this.Variant as MapRemove; } }",
  text! "",
  text! "        public LogEntry(Path path = null) : this(path, 0) { }",
  text! "",
  text! "        public LogEntry(Path path, UInt32 tag) {",
  text! "            this.Path = path ?? Path.Root;",
  text! "            this.Tag = tag;",
  text! "",
  text! "            switch (tag) {",
  text! "                case 0: this.Variant = new Update(this.Path.GetNested(0)); break;",
  text! "                case 8: this.Variant = new ListPush(this.Path.GetNested(8)); break;",
  text! "                case 9: this.Variant = new ListPop(this.Path.GetNested(9)); break;",
  text! "                case 12: this.Variant = new MapRemove(this.Path.GetNested(12)); break;",
  text! "                default: this.Variant = new Update(this.Path.GetNested(0)); break;",
  text! "            }",
  text! "        }",
  text! "",
  text! "        public static LogEntry NewUpdate(Path path = null) { return new LogEntry(path, 0); }",
  text! "        public static LogEntry NewListPush(Path path = null) { return new LogEntry(path, 8); }",
  text! "        public static LogEntry NewListPop(Path path = null) { return new LogEntry(path, 9); }",
  text! "        public static LogEntry NewMapRemove(Path path = null) { return new LogEntry(path, 12); }",
  text! "",
  text! "        public static event EventHandler<VariantUpdateEventArgs<LogEntry>> OnUpdate;",
  text! "",
  text! "        public static void ClearUpdateHandlers() {",
  text! "            OnUpdate = null;",
  text! "        }",
  text! "",
  text! "        public static LogEntry Deserialize(IReader reader, Path path = null) {",
  text! "            var logEntry = new LogEntry(path);",
  text! "            logEntry.Replace(reader, shouldNotify: false);",
  text! "            return logEntry;",
  text! "        }",
  text! "",
  text! "        public WireType? GetWireType(UInt32 tag) {",
  text! "            switch (tag) {",
  text! "                case 0: return WireType.Sized;",
  text! "                case 8: return WireType.Sized;",
  text! "                case 9: return WireType.Sized;",
  text! "                case 12: return WireType.Sized;",
  text! "                default: return null;",
  text! "            }",
  text! "        }",
  text! "",
  text! "        public IState GetNested(UInt32 tag) {",
  text! "            return tag == this.Tag ? this.Variant : null;",
  text! "        }",
  text! "",
  text! "        public void ReplaceAt(UInt32 tag, WireType wireType, IReader reader, bool shouldNotify) {",
  text! "            switch (tag) {",
  text! "                case 0: this.UpdateAndNotify(0, Update.Deserialize(reader, this.Path.GetNested(0)), shouldNotify); break;",
  text! "                case 8: this.UpdateAndNotify(8, ListPush.Deserialize(reader, this.Path.GetNested(8)), shouldNotify); break;",
  text! "                case 9: this.UpdateAndNotify(9, ListPop.Deserialize(reader, this.Path.GetNested(9)), shouldNotify); break;",
  text! "                case 12: this.UpdateAndNotify(12, MapRemove.Deserialize(reader, this.Path.GetNested(12)), shouldNotify); break;",
  text! "                default: reader.SkipToEnd(); break;",
  text! "            }",
  text! "        }",
  text! "",
  text! "        public void ReplayListPush(IReader reader) { throw new NotSupportedException(); }",
  text! "        public void ReplayListPop() { throw new NotSupportedException(); }",
  text! "        public void ReplayMapRemove(UInt32 key) { throw new NotSupportedException(); }",
  text! "",
  text! "        private void UpdateAndNotify(UInt32 newTag, IState newVariant, bool shouldNotify) {",
  text! "            if (shouldNotify) {",
  text! "                var args = new VariantUpdateEventArgs<LogEntry>(newTag, newVariant, this.Tag, this.Variant, this);",
  text! "                LogEntry.OnUpdate?.Invoke(this, args);",
  text! "            }",
  text! "",
  text! "            this.Tag = newTag;",
  text! "            this.Variant = newVariant;",
  text! "        }",
  text! "",
  text! "        // Variant (0): Update",
  text! "",
  text! "        public sealed partial class Update : IState {",
  text! "            public Path Path { get; }",
  text! "",
  text! "            public Vector<UInt32> FlattenPath { get; private set; }",
  text! "            public Bytes Value { get; private set; }",
  text! "",
  text! "            internal Update(Path path = null) {",
  text! "                this.Path = path ?? Path.Root;",
  text! "                this.FlattenPath = new Vector<UInt32>(this.Path.GetNested(0));",
  text! "                this.Value = new Bytes(this.Path.GetNested(1));",
  text! "            }",
  text! "",
  text! "            public static event EventHandler<FieldUpdateEventArgs<Vector<UInt32>, Update>> OnFlattenPathUpdate;",
  text! "            public static event EventHandler<FieldUpdateEventArgs<Bytes, Update>> OnValueUpdate;",
  text! "",
  text! "            public static void ClearFlattenPathUpdateHandlers() { OnFlattenPathUpdate = null; }",
  text! "            public static void ClearValueUpdateHandlers() { OnValueUpdate = null; }",
  text! "",
  text! "            public static void ClearUpdateHandlers() {",
  text! "                OnFlattenPathUpdate = null;",
  text! "                OnValueUpdate = null;",
  text! "            }",
  text! "",
  text! "            internal static Update Deserialize(IReader reader, Path path = null) {",
  text! "                var update = new Update(path);",
  text! "                update.Replace(reader, shouldNotify: false);",
  text! "                return update;",
  text! "            }",
  text! "",
  text! "            public WireType? GetWireType(UInt32 tag) {",
  text! "                switch (tag) {",
  text! "                    case 0: return WireType.Sized;",
  text! "                    case 1: return WireType.Sized;",
  text! "                    default: return null;",
  text! "                }",
  text! "            }",
  text! "",
  text! "            public IState GetNested(UInt32 tag) {",
  text! "                switch (tag) {",
  text! "                    case 0: return this.FlattenPath;",
  text! "                    case 1: return this.Value;",
  text! "                    default: return null;",
  text! "                }",
  text! "            }",
  text! "",
  text! "            public void ReplaceAt(UInt32 tag, WireType wireType, IReader reader, bool shouldNotify) {",
  text! "                switch (tag) {",
  text! "                    case 0: this.FlattenPath = this.MaybeNotify(0, Vector<UInt32>.Deserialize(reader, this.Path.GetNested(0)), this.FlattenPath, OnFlattenPathUpdate, shouldNotify); break;",
  text! "                    case 1: this.Value = this.MaybeNotify(1, Bytes.Deserialize(reader, this.Path.GetNested(1)), this.Value, OnValueUpdate, shouldNotify); break;",
  text! "                    default: reader.SkipField(wireType); break;",
  text! "                }",
  text! "            }",
  text! "",
  text! "            public void ReplayListPush(IReader reader) { throw new NotSupportedException(); }",
  text! "            public void ReplayListPop() { throw new NotSupportedException(); }",
  text! "            public void ReplayMapRemove(UInt32 key) { throw new NotSupportedException(); }",
  text! "",
  text! "            private TValue MaybeNotify<TValue>(",
  text! "                UInt32 tag,",
  text! "                TValue newValue,",
  text! "                TValue oldValue,",
  text! "                EventHandler<FieldUpdateEventArgs<TValue, Update>> handler,",
  text! "                bool shouldNotify",
  text! "            ) {",
  text! "                if (shouldNotify) {",
  text! "                    var args = new FieldUpdateEventArgs<TValue, Update>(tag, newValue, oldValue, this);",
  text! "                    handler?.Invoke(this, args);",
  text! "                }",
  text! "",
  text! "                return newValue;",
  text! "            }",
  text! "        }",
  text! "",
  text! "        // Variant (8): ListPush",
  text! "",
  text! "        public sealed partial class ListPush : IState {",
  text! "            public Path Path { get; }",
  text! "",
  text! "            public Vector<UInt32> FlattenPath { get; private set; }",
  text! "            public Bytes Item { get; private set; }",
  text! "",
  text! "            internal ListPush(Path path = null) {",
  text! "                this.Path = path ?? Path.Root;",
  text! "                this.FlattenPath = new Vector<UInt32>(this.Path.GetNested(0));",
  text! "                this.Item = new Bytes(this.Path.GetNested(1));",
  text! "            }",
  text! "",
  text! "            public static event EventHandler<FieldUpdateEventArgs<Vector<UInt32>, ListPush>> OnFlattenPathUpdate;",
  text! "            public static event EventHandler<FieldUpdateEventArgs<Bytes, ListPush>> OnItemUpdate;",
  text! "",
  text! "            public static void ClearFlattenPathUpdateHandlers() { OnFlattenPathUpdate = null; }",
  text! "            public static void ClearItemUpdateHandlers() { OnItemUpdate = null; }",
  text! "",
  text! "            public static void ClearUpdateHandlers() {",
  text! "                OnFlattenPathUpdate = null;",
  text! "                OnItemUpdate = null;",
  text! "            }",
  text! "",
  text! "            internal static ListPush Deserialize(IReader reader, Path path = null) {",
  text! "                var listPush = new ListPush(path);",
  text! "                listPush.Replace(reader, shouldNotify: false);",
  text! "                return listPush;",
  text! "            }",
  text! "",
  text! "            public WireType? GetWireType(UInt32 tag) {",
  text! "                switch (tag) {",
  text! "                    case 0: return WireType.Sized;",
  text! "                    case 1: return WireType.Sized;",
  text! "                    default: return null;",
  text! "                }",
  text! "            }",
  text! "",
  text! "            public IState GetNested(UInt32 tag) {",
  text! "                switch (tag) {",
  text! "                    case 0: return this.FlattenPath;",
  text! "                    case 1: return this.Item;",
  text! "                    default: return null;",
  text! "                }",
  text! "            }",
  text! "",
  text! "            public void ReplaceAt(UInt32 tag, WireType wireType, IReader reader, bool shouldNotify) {",
  text! "                switch (tag) {",
  text! "                    case 0: this.FlattenPath = this.MaybeNotify(0, Vector<UInt32>.Deserialize(reader, this.Path.GetNested(0)), this.FlattenPath, OnFlattenPathUpdate, shouldNotify); break;",
  text! "                    case 1: this.Item = this.MaybeNotify(1, Bytes.Deserialize(reader, this.Path.GetNested(1)), this.Item, OnItemUpdate, shouldNotify); break;",
  text! "                    default: reader.SkipField(wireType); break;",
  text! "                }",
  text! "            }",
  text! "",
  text! "            public void ReplayListPush(IReader reader) { throw new NotSupportedException(); }",
  text! "            public void ReplayListPop() { throw new NotSupportedException(); }",
  text! "            public void ReplayMapRemove(UInt32 key) { throw new NotSupportedException(); }",
  text! "",
  text! "            private TValue MaybeNotify<TValue>(",
  text! "                UInt32 tag,",
  text! "                TValue newValue,",
  text! "                TValue oldValue,",
  text! "                EventHandler<FieldUpdateEventArgs<TValue, ListPush>> handler,",
  text! "                bool shouldNotify",
  text! "            ) {",
  text! "                if (shouldNotify) {",
  text! "                    var args = new FieldUpdateEventArgs<TValue, ListPush>(tag, newValue, oldValue, this);",
  text! "                    handler?.Invoke(this, args);",
  text! "                }",
  text! "",
  text! "                return newValue;",
  text! "            }",
  text! "        }",
  text! "",
  text! "        // Variant (9): ListPop",
  text! "",
  text! "        public sealed partial class ListPop : IState {",
  text! "            public Path Path { get; }",
  text! "            public Vector<UInt32> FlattenPath { get; private set; }",
  text! "",
  text! "            internal ListPop(Path path = null) {",
  text! "                this.Path = path ?? Path.Root;",
  text! "                this.FlattenPath = new Vector<UInt32>(this.Path.GetNested(0));",
  text! "            }",
  text! "",
  text! "            public static event EventHandler<FieldUpdateEventArgs<Vector<UInt32>, ListPop>> OnFlattenPathUpdate;",
  text! "",
  text! "            public static void ClearFlattenPathUpdateHandlers() {",
  text! "                OnFlattenPathUpdate = null;",
  text! "            }",
  text! "",
  text! "            public static void ClearUpdateHandlers() {",
  text! "                OnFlattenPathUpdate = null;",
  text! "            }",
  text! "",
  text! "            internal static ListPop Deserialize(IReader reader, Path path = null) {",
  text! "                var listPop = new ListPop(path);",
  text! "                listPop.Replace(reader, shouldNotify: false);",
  text! "                return listPop;",
  text! "            }",
  text! "",
  text! "            public WireType? GetWireType(UInt32 tag) {",
  text! "                switch (tag) {",
  text! "                    case 0: return WireType.Sized;",
  text! "                    default: return null;",
  text! "                }",
  text! "            }",
  text! "",
  text! "            public IState GetNested(UInt32 tag) {",
  text! "                switch (tag) {",
  text! "                    case 0: return this.FlattenPath;",
  text! "                    default: return null;",
  text! "                }",
  text! "            }",
  text! "",
  text! "            public void ReplaceAt(UInt32 tag, WireType wireType, IReader reader, bool shouldNotify) {",
  text! "                switch (tag) {",
  text! "                    case 0: this.FlattenPath = this.MaybeNotify(0, Vector<UInt32>.Deserialize(reader, this.Path.GetNested(0)), this.FlattenPath, OnFlattenPathUpdate, shouldNotify); break;",
  text! "                    default: reader.SkipField(wireType); break;",
  text! "                }",
  text! "            }",
  text! "",
  text! "            public void ReplayListPush(IReader reader) { throw new NotSupportedException(); }",
  text! "            public void ReplayListPop() { throw new NotSupportedException(); }",
  text! "            public void ReplayMapRemove(UInt32 key) { throw new NotSupportedException(); }",
  text! "",
  text! "            private TValue MaybeNotify<TValue>(",
  text! "                UInt32 tag,",
  text! "                TValue newValue,",
  text! "                TValue oldValue,",
  text! "                EventHandler<FieldUpdateEventArgs<TValue, ListPop>> handler,",
  text! "                bool shouldNotify",
  text! "            ) {",
  text! "                if (shouldNotify) {",
  text! "                    var args = new FieldUpdateEventArgs<TValue, ListPop>(tag, newValue, oldValue, this);",
  text! "                    handler?.Invoke(this, args);",
  text! "                }",
  text! "",
  text! "                return newValue;",
  text! "            }",
  text! "        }",
  text! "",
  text! "        // Variant (12): MapRemove",
  text! "",
  text! "        public sealed partial class MapRemove : IState {",
  text! "            public Path Path { get; }",
  text! "",
  text! "            public Vector<UInt32> FlattenPath { get; private set; }",
  text! "            public UInt32 Key { get; private set; }",
  text! "",
  text! "            internal MapRemove(Path path = null) {",
  text! "                this.Path = path ?? Path.Root;",
  text! "                this.FlattenPath = new Vector<UInt32>(this.Path.GetNested(0));",
  text! "            }",
  text! "",
  text! "            public static event EventHandler<FieldUpdateEventArgs<Vector<UInt32>, MapRemove>> OnFlattenPathUpdate;",
  text! "            public static event EventHandler<FieldUpdateEventArgs<UInt32, MapRemove>> OnKeyUpdate;",
  text! "",
  text! "            public static void ClearFlattenPathUpdateHandlers() { OnFlattenPathUpdate = null; }",
  text! "            public static void ClearKeyUpdateHandlers() { OnKeyUpdate = null; }",
  text! "",
  text! "            public static void ClearUpdateHandlers() {",
  text! "                OnFlattenPathUpdate = null;",
  text! "                OnKeyUpdate = null;",
  text! "            }",
  text! "",
  text! "            internal static MapRemove Deserialize(IReader reader, Path path = null) {",
  text! "                var mapRemove = new MapRemove(path);",
  text! "                mapRemove.Replace(reader, shouldNotify: false);",
  text! "                return mapRemove;",
  text! "            }",
  text! "",
  text! "            public WireType? GetWireType(UInt32 tag) {",
  text! "                switch (tag) {",
  text! "                    case 0: return WireType.Sized;",
  text! "                    case 1: return WireType.Varint;",
  text! "                    default: return null;",
  text! "                }",
  text! "            }",
  text! "",
  text! "            public IState GetNested(UInt32 tag) {",
  text! "                switch (tag) {",
  text! "                    case 0: return this.FlattenPath;",
  text! "                    default: return null;",
  text! "                }",
  text! "            }",
  text! "",
  text! "            public void ReplaceAt(UInt32 tag, WireType wireType, IReader reader, bool shouldNotify) {",
  text! "                switch (tag) {",
  text! "                    case 0: this.FlattenPath = this.MaybeNotify(0, Vector<UInt32>.Deserialize(reader, this.Path.GetNested(0)), this.FlattenPath, OnFlattenPathUpdate, shouldNotify); break;",
  text! "                    case 1: this.Key = this.MaybeNotify(1, reader.ReadUInt32(), this.Key, OnKeyUpdate, shouldNotify); break;",
  text! "                    default: reader.SkipField(wireType); break;",
  text! "                }",
  text! "            }",
  text! "",
  text! "            public void ReplayListPush(IReader reader) { throw new NotSupportedException(); }",
  text! "            public void ReplayListPop() { throw new NotSupportedException(); }",
  text! "            public void ReplayMapRemove(UInt32 key) { throw new NotSupportedException(); }",
  text! "",
  text! "            private TValue MaybeNotify<TValue>(",
  text! "                UInt32 tag,",
  text! "                TValue newValue,",
  text! "                TValue oldValue,",
  text! "                EventHandler<FieldUpdateEventArgs<TValue, MapRemove>> handler,",
  text! "                bool shouldNotify",
  text! "            ) {",
  text! "                if (shouldNotify) {",
  text! "                    var args = new FieldUpdateEventArgs<TValue, MapRemove>(tag, newValue, oldValue, this);",
  text! "                    handler?.Invoke(this, args);",
  text! "                }",
  text! "",
  text! "                return newValue;",
  text! "            }",
  text! "        }",
  text! "    }",
  text! "}"]

end Steit.Conformance
