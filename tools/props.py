#!/usr/bin/env python3
"""Generator for /verif/properties.jsonl (keeps the JSON well-formed). Run: python3 tools/props.py"""
import json, os
P = []
def p(title, statement, quantifier, why, anchors):
    P.append(dict(id="C%02d" % (len(P)+1), title=title, statement=statement, quantifier=quantifier,
                  why_tests_cant=why, anchors=anchors))
RD="src/lamppost/messages/RawDatagram.cpp"; RH="include/lamppost/messages/RawDatagram.h"
DG="src/lamppost/messages/Datagram.cpp"; DH="include/lamppost/messages/Datagram.h"
MS="src/lamppost/messages/Message.cpp"; BUS="src/lamppost/bus/Bus.cpp"; BH="include/lamppost/bus/Bus.h"
SUB="src/lamppost/bus/Subscriber.cpp"; PUB="src/lamppost/bus/Publisher.cpp"
AC="src/lamppost/bus/ActionConsumer.cpp"; AP="src/lamppost/bus/ActionProvider.cpp"
RB="src/lamppost/data/RawBytes.cpp"; FS="src/lamppost/Filesystem.cpp"; PM="src/lamppost/plugin/PluginManager.cpp"
PT="src/lamppost/plugin/PluginTemplate.cpp"; PI="src/lamppost/plugin/PluginInstance.cpp"; LP="src/lamppost/LampPost.cpp"
LK="src/plugins/link/Link.cpp"; SI="src/plugins/sysinfo/SysInfo.cpp"; UU="include/lamppost/utilities/Uuid.h"
AM="src/lamppost/utilities/AntMatcher.cpp"; LG="src/lamppost/log/Log.cpp"; MC="src/main.cpp"
PMC="include/lamppost/plugin/PluginManagerConfiguration.h"; LPC="include/lamppost/LampPostConfiguration.h"; SV="src/lamppost/platformspecific/windows/service/Service.cpp"
SVM="src/lamppost/platformspecific/windows/service/main.cpp"

exec(open(os.path.join(os.path.dirname(__file__), "props_list.py")).read())

out=os.path.join(os.path.dirname(__file__), "..", "properties.jsonl")
with open(out,"w") as f:
    for x in P: f.write(json.dumps(x)+"\n")
print(len(P))
